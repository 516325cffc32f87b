import Verif.Ray.Opposite
import Mathlib.Data.List.Chain

/-!
# Rays through a turned or mirrored grid (C164)

A quarter turn takes the ray at angle `θ` to the one at `θ + π/2`, and the pixels of an `rx × rz` grid to
those of an `rz × rx` grid; the mirror at the second axis takes `θ` to `-θ`.
-/

set_option linter.unusedSectionVars false

namespace Tomopy.Ray

open Real

section Generic

variable {K : Type*} [Field K] [LinearOrder K] [IsStrictOrderedRing K] [FloorRing K]

/-! ## Specification -/

/-- The ray meets no corner of the pixel grid (specification). -/
def AvoidsCorners (rx rz : Nat) (yi sn cs : K) : Prop :=
  ∀ n ≤ rx, ∀ m ≤ rz, ¬ OnRay yi sn cs (grid rx n, grid rz m)

/-- Where `np.rot90(image, axes=(1, 2))` puts pixel `j = iy + ix * rz` of an `rx × rz` image: at
`(rz - 1 - iy, ix)` (specification). -/
def turnPix (rx rz : Int) (j : Int) : Int := j / rz + (rz - 1 - j % rz) * rx

/-- Where `np.flip(image, axis=1)` puts pixel `j = iy + ix * rz`: at `(rx - 1 - ix, iy)`
(specification). -/
def flipPix (rx rz : Int) (j : Int) : Int := j % rz + (rx - 1 - j / rz) * rz

/-! ## Mid points -/

theorem grid_int {r : Nat} {v : K} {k : Int} (h : v = -(r : K) / 2 + k) (h1 : -(r : K) / 2 ≤ v)
    (h2 : v ≤ (r : K) / 2) : ∃ n ≤ r, v = grid r n := by
  have hk : (0 : Int) ≤ k := by
    have : (0 : K) ≤ k := by linarith
    exact_mod_cast this
  have hk2 : k ≤ (r : Int) := by
    have : (k : K) ≤ (r : K) := by linarith
    exact_mod_cast this
  refine ⟨k.toNat, by omega, ?_⟩
  have hc : ((k.toNat : Nat) : K) = (k : K) := by
    rw [← Int.cast_natCast, Int.toNat_of_nonneg hk]
  rw [grid, hc, h]
  ring

/-- If the ray avoids the corners, the mid point of two crossings lies on a horizontal grid line only if it
is a crossing itself. -/
theorem mid_not_grid {rx rz : Nat} {yi sn cs : K} (ha : AvoidsCorners rx rz yi sn cs) {P Q : K × K}
    (hP : IsCrossing rx rz yi sn cs P) (hQ : IsCrossing rx rz yi sn cs Q) (hne : P ≠ Q)
    (hM : ¬ IsCrossing rx rz yi sn cs ((P.1 + Q.1) / 2, (P.2 + Q.2) / 2)) :
    ∀ m ≤ rz, (P.2 + Q.2) / 2 ≠ grid rz m := by
  intro m hm e
  have hpar := onRay_parallel hP.1 hQ.1
  have hon : OnRay yi sn cs ((P.1 + Q.1) / 2, (P.2 + Q.2) / 2) := by
    have h1 := hP.1
    have h2 := hQ.1
    simp only [OnRay] at h1 h2 ⊢
    linear_combination h1 / 2 + h2 / 2
  by_cases hs : sn = 0
  · refine ha 0 (Nat.zero_le _) m hm ?_
    simp only [OnRay, hs, mul_zero] at hon ⊢
    rw [← e]
    exact hon
  have hnm : ¬ Margin rx ((P.1 + Q.1) / 2) := fun hmg => hM ⟨hon, Or.inl ⟨hs, hmg, m, hm, e⟩⟩
  have corner : ∀ A B : K × K, IsCrossing rx rz yi sn cs A → IsCrossing rx rz yi sn cs B →
      (A.2 + B.2) / 2 = grid rz m → (∃ n ≤ rz, A.2 = grid rz n) → Margin rz B.2 →
      (∃ k ≤ rx, B.1 = grid rx k) → False := by
    rintro A B _ hB hAB ⟨n, hn, hA⟩ hmar ⟨k, hk, hBk⟩
    obtain ⟨j, hj, hjB⟩ := grid_int (r := rz) (v := B.2) (k := 2 * (m : Int) - n) (by
      rw [hA] at hAB
      simp only [grid] at hAB
      push_cast
      linarith) (by linarith [hmar.1]) (by linarith [hmar.2])
    refine ha k hk j hj ?_
    have := hB.1
    rwa [show B = (grid rx k, grid rz j) from Prod.ext hBk hjB] at this
  rcases hP.2 with ⟨-, p1, p2⟩ | ⟨hc, p1, p2⟩
  · rcases hQ.2 with ⟨-, q1, q2⟩ | ⟨-, q1, q2⟩
    · exact hnm ⟨by linarith [p1.1, q1.1], by linarith [p1.2, q1.2]⟩
    · exact corner P Q hP hQ e p2 q1 q2
  · rcases hQ.2 with ⟨-, q1, q2⟩ | ⟨-, q1, q2⟩
    · exact corner Q P hQ hP (by rw [← e]; ring) q2 p1 p2
    · obtain ⟨k, hk, hPk⟩ := p2
      obtain ⟨l, hl, hQl⟩ := q2
      have hkl : k ≠ l := by
        rintro rfl
        apply hne
        refine Prod.ext (hPk.trans hQl.symm) ?_
        rw [hPk, hQl, sub_self, zero_mul] at hpar
        rcases mul_eq_zero.mp hpar.symm with h | h
        · linarith
        · exact absurd h hc
      have hs1 : (1 : K) ≤ (k : K) + l := by
        have : 1 ≤ k + l := by omega
        exact_mod_cast this
      have hs2 : (k : K) + l + 1 ≤ 2 * rx := by
        have : k + l + 1 ≤ 2 * rx := by omega
        exact_mod_cast this
      apply hnm
      rw [hPk, hQl]
      simp only [grid, Margin]
      constructor <;> linarith

theorem isCrossing_swap {rx rz : Nat} {yi sn cs : K} {P : K × K} :
    IsCrossing rz rx (-yi) cs sn (P.2, P.1) ↔ IsCrossing rx rz yi sn cs P := by
  simp only [IsCrossing, OnRay]
  constructor
  · rintro ⟨h1, h2⟩
    exact ⟨by linear_combination -h1, h2.symm⟩
  · rintro ⟨h1, h2⟩
    exact ⟨by linear_combination -h1, h2.symm⟩

theorem avoids_swap {rx rz : Nat} {yi sn cs : K} (h : AvoidsCorners rx rz yi sn cs) :
    AvoidsCorners rz rx (-yi) cs sn := by
  intro n hn m hm he
  apply h m hm n hn
  simp only [OnRay] at he ⊢
  linear_combination -he

/-- The mid point of `P` and `Q` is on no grid line. -/
def NoTie (rx rz : Nat) (P Q : K × K) : Prop :=
  (∀ n ≤ rx, (P.1 + Q.1) / 2 ≠ grid rx n) ∧ ∀ m ≤ rz, (P.2 + Q.2) / 2 ≠ grid rz m

theorem noTie {rx rz : Nat} {yi sn cs : K} (ha : AvoidsCorners rx rz yi sn cs) {P Q : K × K}
    (hP : IsCrossing rx rz yi sn cs P) (hQ : IsCrossing rx rz yi sn cs Q) (hne : P ≠ Q)
    (hM : ¬ IsCrossing rx rz yi sn cs ((P.1 + Q.1) / 2, (P.2 + Q.2) / 2)) : NoTie rx rz P Q := by
  refine ⟨?_, mid_not_grid ha hP hQ hne hM⟩
  have := mid_not_grid (avoids_swap ha) (isCrossing_swap.mpr hP) (isCrossing_swap.mpr hQ)
    (fun e => hne (Prod.ext (congrArg Prod.snd e) (congrArg Prod.fst e)))
    (fun h => hM (isCrossing_swap.mp h))
  exact this

/-! ## The list of crossings -/

theorem crossings_nodup {q : Int} {rx rz : Nat} {yi sn cs : K} (ha : AvoidsCorners rx rz yi sn cs) :
    (crossings q rx rz yi sn cs).Nodup := by
  rw [(crossings_perm q rx rz yi sn cs).nodup_iff, List.nodup_append]
  refine ⟨(pairwise_aList rx rz yi sn cs).imp fun h e => by rw [e] at h; exact lt_irrefl _ h,
    (pairwise_bList rx rz yi sn cs).imp fun h e => by rw [e] at h; exact lt_irrefl _ h, ?_⟩
  rintro P hP _ hQ rfl
  have hr : OnRay yi sn cs P := onRay_crossings (q := q) (rx := rx) (rz := rz) (by
    rw [(crossings_perm q rx rz yi sn cs).mem_iff]; simp [hP])
  obtain ⟨m, hm, hp⟩ := mem_aList hP
  obtain ⟨n, hn, hp'⟩ := mem_bList hQ
  rw [aPoint_some] at hp
  rw [bPoint_some] at hp'
  refine ha n hn m hm ?_
  rwa [show P = (grid rx n, grid rz m) from Prod.ext hp'.2.2 hp.2.2] at hr

/-- Position along the ray. -/
def along (sn cs : K) (P : K × K) : K := P.1 * cs + P.2 * sn

theorem along_inj {yi sn cs : K} (h0 : sn ≠ 0 ∨ cs ≠ 0) {P Q : K × K} (hP : OnRay yi sn cs P)
    (hQ : OnRay yi sn cs Q) (h : along sn cs P = along sn cs Q) : P = Q := by
  simp only [OnRay, along] at hP hQ h
  have hpos : sn * sn + cs * cs ≠ 0 := by
    rcases h0 with h0 | h0
    · exact (add_pos_of_pos_of_nonneg (mul_self_pos.mpr h0) (mul_self_nonneg _)).ne'
    · exact (add_pos_of_nonneg_of_pos (mul_self_nonneg _) (mul_self_pos.mpr h0)).ne'
  refine Prod.ext (mul_right_cancel₀ hpos ?_) (mul_right_cancel₀ hpos ?_)
  · linear_combination cs * h - sn * hP + sn * hQ
  · linear_combination sn * h + cs * hP - cs * hQ

theorem isCrossing_dir {rx rz : Nat} {yi sn cs : K} {P : K × K} (h : IsCrossing rx rz yi sn cs P) :
    sn ≠ 0 ∨ cs ≠ 0 := by
  rcases h.2 with h | h
  · exact Or.inl h.1
  · exact Or.inr h.1

/-- The crossings are sorted along the ray in one of the two directions. -/
theorem crossings_along (q : Int) (rx rz : Nat) (yi sn cs : K) (hq : FlagOk q sn cs) :
    (crossings q rx rz yi sn cs).Pairwise (fun P Q => along sn cs P ≤ along sn cs Q) ∨
      (crossings q rx rz yi sn cs).Pairwise (fun P Q => along sn cs Q ≤ along sn cs P) := by
  rcases crossings_ordered q rx rz yi sn cs hq with h | h
  · left
    refine h.imp fun {P Q} h => ?_
    unfold along
    linarith
  · right
    refine h.imp fun {P Q} h => ?_
    unfold along
    linarith

theorem sorted_unique {yi sn cs : K} (h0 : sn ≠ 0 ∨ cs ≠ 0) {l l' : List (K × K)} (hp : l'.Perm l)
    (hr : ∀ P ∈ l, OnRay yi sn cs P)
    (h : l.Pairwise (fun P Q => along sn cs P ≤ along sn cs Q) ∨
      l.Pairwise (fun P Q => along sn cs Q ≤ along sn cs P))
    (h' : l'.Pairwise (fun P Q => along sn cs P ≤ along sn cs Q) ∨
      l'.Pairwise (fun P Q => along sn cs Q ≤ along sn cs P)) : l' = l ∨ l' = l.reverse := by
  have key : ∀ l l' : List (K × K), l'.Perm l → (∀ P ∈ l, OnRay yi sn cs P) →
      l.Pairwise (fun P Q => along sn cs P ≤ along sn cs Q) →
      l'.Pairwise (fun P Q => along sn cs P ≤ along sn cs Q) → l' = l := by
    intro l l' hp hr h h'
    refine List.Perm.eq_of_pairwise (le := fun P Q => along sn cs P ≤ along sn cs Q) ?_ h' h hp
    intro P Q hP hQ h1 h2
    exact along_inj h0 (hr P (hp.mem_iff.mp hP)) (hr Q hQ) (le_antisymm h1 h2)
  rcases h with h | h <;> rcases h' with h' | h'
  · exact Or.inl (key _ _ hp hr h h')
  · right
    have := key l l'.reverse ((List.reverse_perm _).trans hp) hr h (List.pairwise_reverse.mpr h')
    rw [← this, List.reverse_reverse]
  · right
    exact key l.reverse l' (hp.trans (List.reverse_perm _).symm)
      (fun P hP => hr P (List.mem_reverse.mp hP)) (List.pairwise_reverse.mpr h) h'
  · left
    have := key l.reverse l'.reverse ((List.reverse_perm _).trans (hp.trans (List.reverse_perm _).symm))
      (fun P hP => hr P (List.mem_reverse.mp hP)) (List.pairwise_reverse.mpr h) (List.pairwise_reverse.mpr h')
    exact List.reverse_injective this

/-- Neighbouring crossings of a ray that avoids the corners have a mid point on no grid line. -/
theorem crossings_noTie {q : Int} {rx rz : Nat} {yi sn cs : K} (hq : FlagOk q sn cs)
    (ha : AvoidsCorners rx rz yi sn cs) : (crossings q rx rz yi sn cs).IsChain (NoTie rx rz) := by
  rw [List.isChain_iff_getElem]
  intro i hi
  have hi0 : i < (crossings q rx rz yi sn cs).length := by omega
  have m1 := List.getElem_mem (l := crossings q rx rz yi sn cs) (n := i) hi0
  have m2 := List.getElem_mem (l := crossings q rx rz yi sn cs) (n := i + 1) hi
  have hr := rx_pos_of_mem m1
  have c1 := (mem_crossings hr).mp m1
  have c2 := (mem_crossings hr).mp m2
  have hne : (crossings q rx rz yi sn cs)[i] ≠ (crossings q rx rz yi sn cs)[i + 1] := by
    intro e
    have := (List.Nodup.getElem_inj_iff (crossings_nodup (q := q) ha)).mp e
    omega
  refine noTie ha c1 c2 hne fun hM => ?_
  obtain ⟨j, hj, ej⟩ := List.mem_iff_getElem.mp ((mem_crossings (q := q) hr).mpr hM)
  have hal : along sn cs (crossings q rx rz yi sn cs)[j] =
      (along sn cs (crossings q rx rz yi sn cs)[i] + along sn cs (crossings q rx rz yi sn cs)[i + 1]) / 2 := by
    rw [ej]; unfold along; ring
  have hne' : along sn cs (crossings q rx rz yi sn cs)[i] ≠
      along sn cs (crossings q rx rz yi sn cs)[i + 1] :=
    fun e => hne (along_inj (isCrossing_dir c1) c1.1 c2.1 e)
  rcases crossings_along q rx rz yi sn cs hq with h | h
  · rw [List.pairwise_iff_getElem] at h
    have h12 := h i (i + 1) hi0 hi (by omega)
    rcases Nat.lt_or_ge i j with hij | hij
    · rcases Nat.lt_or_ge (i + 1) j with hij' | hij'
      · have := h (i + 1) j hi hj hij'
        exact hne' (by linarith)
      · obtain rfl : j = i + 1 := by omega
        exact hne' (by linarith)
    · rcases Nat.lt_or_ge j i with hij' | hij'
      · have := h j i hj hi0 hij'
        exact hne' (by linarith)
      · obtain rfl : j = i := by omega
        exact hne' (by linarith)
  · rw [List.pairwise_iff_getElem] at h
    have h12 := h i (i + 1) hi0 hi (by omega)
    rcases Nat.lt_or_ge i j with hij | hij
    · rcases Nat.lt_or_ge (i + 1) j with hij' | hij'
      · have := h (i + 1) j hi hj hij'
        exact hne' (by linarith)
      · obtain rfl : j = i + 1 := by omega
        exact hne' (by linarith)
    · rcases Nat.lt_or_ge j i with hij' | hij'
      · have := h j i hj hi0 hij'
        exact hne' (by linarith)
      · obtain rfl : j = i := by omega
        exact hne' (by linarith)

/-! ## Moved rays -/

/-- A motion `T` of the plane that takes the crossings of one ray with one grid to those of another ray with
another grid and renumbers the pixels by `τ`. -/
structure Moves (hyp : K → K → K) (rx rz : Nat) (yi sn cs : K) (rx' rz' : Nat) (yi' sn' cs' : K)
    (T : K × K → K × K) (τ : Int → Int) : Prop where
  pos : 0 < rx + rz → 0 < rx' + rz'
  pos' : 0 < rx' + rz' → 0 < rx + rz
  inj : Function.Injective T
  cross : ∀ P, IsCrossing rx rz yi sn cs P → IsCrossing rx' rz' yi' sn' cs' (T P)
  surj : ∀ P', IsCrossing rx' rz' yi' sn' cs' P' → ∃ P, IsCrossing rx rz yi sn cs P ∧ T P = P'
  along : ∀ P, along sn' cs' (T P) = along sn cs P
  hyp : ∀ P Q, hyp ((T Q).1 - (T P).1) ((T Q).2 - (T P).2) = hyp (Q.1 - P.1) (Q.2 - P.2)
  pix : ∀ P Q, Kept rx rz P → Kept rx rz Q → Apart rx rz P Q → NoTie rx rz P Q →
    pixelIndex rz' (T P).2 (T Q).2 + pixelIndex rx' (T P).1 (T Q).1 * (rz' : Int) =
      τ (pixelIndex rz P.2 Q.2 + pixelIndex rx P.1 Q.1 * (rz : Int))

theorem calcDist_moved {hyp : K → K → K} {rx rz rx' rz' : Nat} {T : K × K → K × K} {τ : Int → Int}
    (hh : ∀ P Q, hyp ((T Q).1 - (T P).1) ((T Q).2 - (T P).2) = hyp (Q.1 - P.1) (Q.2 - P.2)) :
    ∀ l : List (K × K), l.IsChain (fun P Q =>
      pixelIndex rz' (T P).2 (T Q).2 + pixelIndex rx' (T P).1 (T Q).1 * (rz' : Int) =
        τ (pixelIndex rz P.2 Q.2 + pixelIndex rx P.1 Q.1 * (rz : Int))) →
      calcDist hyp rx' rz' (l.map T) = (calcDist hyp rx rz l).map fun e => (τ e.1, e.2) := by
  intro l
  induction l with
  | nil => intro _; rfl
  | cons P l ih =>
    cases l with
    | nil => intro _; rfl
    | cons Q l =>
      intro h
      rw [List.isChain_cons_cons] at h
      have := ih h.2
      simp only [List.map_cons] at this ⊢
      rw [calcDist, this, calcDist, h.1, hh, List.map_cons]

theorem trace_moved {hyp : K → K → K} (hh : IsHyp hyp) {rx rz rx' rz' : Nat} {yi sn cs yi' sn' cs' : K}
    {T : K × K → K × K} {τ : Int → Int} (hm : Moves hyp rx rz yi sn cs rx' rz' yi' sn' cs' T τ)
    (ha : AvoidsCorners rx rz yi sn cs) (ha' : AvoidsCorners rx' rz' yi' sn' cs') {q q' : Int}
    (hq : FlagOk q sn cs) (hq' : FlagOk q' sn' cs') :
    ∃ segs segs', trace hyp (capsRecon rx rz) q rx rz yi sn cs = some segs ∧
      trace hyp (capsRecon rx' rz') q' rx' rz' yi' sn' cs' = some segs' ∧
      segs'.Perm (segs.map fun e => (τ e.1, e.2)) := by
  have hle := crossings_le rx rz yi sn cs
  have hle' := crossings_le rx' rz' yi' sn' cs'
  rw [trace_eq, trace_eq, if_pos (by simp only [capsRecon]; omega),
    if_pos (by simp only [capsRecon]; omega)]
  refine ⟨_, _, rfl, rfl, ?_⟩
  change (calcDist hyp rx' rz' (crossings q' rx' rz' yi' sn' cs')).Perm
    ((calcDist hyp rx rz (crossings q rx rz yi sn cs)).map fun e => (τ e.1, e.2))
  have hperm : (crossings q' rx' rz' yi' sn' cs').Perm ((crossings q rx rz yi sn cs).map T) := by
    rw [List.perm_ext_iff_of_nodup (crossings_nodup ha') ((crossings_nodup ha).map hm.inj)]
    intro P'
    rw [List.mem_map]
    constructor
    · intro h
      have hr := rx_pos_of_mem h
      obtain ⟨P, h1, h2⟩ := hm.surj P' ((mem_crossings hr).mp h)
      exact ⟨P, (mem_crossings (hm.pos' hr)).mpr h1, h2⟩
    · rintro ⟨P, h, rfl⟩
      have hr := rx_pos_of_mem h
      exact (mem_crossings (hm.pos hr)).mpr (hm.cross P ((mem_crossings hr).mp h))
  have hdist : calcDist hyp rx' rz' ((crossings q rx rz yi sn cs).map T) =
      (calcDist hyp rx rz (crossings q rx rz yi sn cs)).map fun e => (τ e.1, e.2) := by
    refine calcDist_moved hm.hyp _ ?_
    have h1 := crossings_noTie hq ha
    have h2 := crossings_apart q rx rz yi sn cs
    rw [List.isChain_iff_getElem] at h1 ⊢
    rw [List.pairwise_iff_getElem] at h2
    intro i hi
    exact hm.pix _ _ (crossings_kept (List.getElem_mem _)) (crossings_kept (List.getElem_mem _))
      (h2 i (i + 1) (by omega) hi (by omega)) (h1 i hi)
  by_cases hnil : crossings q rx rz yi sn cs = []
  · rw [hnil] at hperm ⊢
    rw [List.map_nil, List.perm_nil] at hperm
    rw [hperm]
    simp [calcDist]
  obtain ⟨P, hP⟩ := List.exists_mem_of_ne_nil _ hnil
  have hcr := (mem_crossings (rx_pos_of_mem hP)).mp hP
  have hal : ((crossings q rx rz yi sn cs).map T).Pairwise
      (fun P Q => along sn' cs' P ≤ along sn' cs' Q) ∨ ((crossings q rx rz yi sn cs).map T).Pairwise
      (fun P Q => along sn' cs' Q ≤ along sn' cs' P) := by
    rcases crossings_along q rx rz yi sn cs hq with h | h
    · left
      rw [List.pairwise_map]
      exact h.imp fun h => by rw [hm.along, hm.along]; exact h
    · right
      rw [List.pairwise_map]
      exact h.imp fun h => by rw [hm.along, hm.along]; exact h
  rcases sorted_unique (yi := yi') (isCrossing_dir (hm.cross P hcr)) hperm
    (fun P hP => onRay_crossings (hperm.mem_iff.mpr hP)) hal (crossings_along q' rx' rz' yi' sn' cs' hq')
    with h | h
  · rw [h, hdist]
  · rw [h, calcDist_reverse hh, hdist]
    exact List.reverse_perm _

/-! ## The quarter turn and the mirror -/

theorem margin_neg {r : Nat} {v : K} (h : Margin r v) : Margin r (-v) :=
  ⟨by linarith [h.2], by linarith [h.1]⟩

theorem grid_neg {r n : Nat} (h : n ≤ r) : -grid r n = (grid r (r - n) : K) := by
  simp only [grid]
  rw [Nat.cast_sub h]
  ring

theorem pixelIndex_neg {r : Nat} {v0 v1 : K} (h1 : -(r : K) / 2 ≤ (v0 + v1) / 2)
    (h2 : (v0 + v1) / 2 ≤ (r : K) / 2) (h : ∀ n ≤ r, (v0 + v1) / 2 ≠ grid r n) :
    pixelIndex r (-v0) (-v1) = (r : Int) - 1 - pixelIndex r v0 v1 := by
  rw [pixelIndex_eq, pixelIndex_eq]
  have e : (-v0 + -v1) / 2 + (r : K) / 2 = -((v0 + v1) / 2 + (r : K) / 2) + ((r : Int) : K) := by
    push_cast; ring
  rw [e, Int.floor_add_intCast, Int.floor_neg]
  have hne : ∀ k : Int, (v0 + v1) / 2 + (r : K) / 2 ≠ k := by
    intro k hk
    obtain ⟨n, hn, he⟩ := grid_int (r := r) (v := (v0 + v1) / 2) (k := k) (by linarith) h1 h2
    exact h n hn he
  have hc : ⌈(v0 + v1) / 2 + (r : K) / 2⌉ = ⌊(v0 + v1) / 2 + (r : K) / 2⌋ + 1 := by
    rw [Int.ceil_eq_iff]
    refine ⟨?_, ?_⟩
    · push_cast
      have := lt_of_le_of_ne (Int.floor_le ((v0 + v1) / 2 + (r : K) / 2)) (hne _).symm
      linarith
    · push_cast
      exact (Int.lt_floor_add_one _).le
  rw [hc]
  ring

theorem pix_parts {rx rz : Nat} {P Q : K × K} (hP : Kept rx rz P) (hQ : Kept rx rz Q)
    (h : Apart rx rz P Q) :
    (pixelIndex rz P.2 Q.2 + pixelIndex rx P.1 Q.1 * (rz : Int)) / rz = pixelIndex rx P.1 Q.1 ∧
    (pixelIndex rz P.2 Q.2 + pixelIndex rx P.1 Q.1 * (rz : Int)) % rz = pixelIndex rz P.2 Q.2 := by
  obtain ⟨iy, hiy, hey, -, -⟩ := pixelIndex_mem (r := rz) (v0 := P.2) (v1 := Q.2)
    (by linarith [hP.2.1, hQ.2.1]) (by rcases h.2 with h | h <;> linarith [hP.2.2, hQ.2.2])
  have h1 : 0 ≤ pixelIndex rz P.2 Q.2 := by rw [hey]; omega
  have h2 : pixelIndex rz P.2 Q.2 < rz := by rw [hey]; omega
  constructor
  · rw [Int.add_mul_ediv_right _ _ (by omega), Int.ediv_eq_zero_of_lt h1 h2, zero_add]
  · rw [Int.add_mul_emod_self_right, Int.emod_eq_of_lt h1 h2]

theorem quarter_moves {hyp : K → K → K} (hh : IsHyp hyp) (rx rz : Nat) (yi sn cs : K) :
    Moves hyp rx rz yi sn cs rz rx yi cs (-sn) (fun P => (-P.2, P.1)) (turnPix rx rz) where
  pos h := by omega
  pos' h := by omega
  inj P Q h := Prod.ext (congrArg Prod.snd h) (neg_injective (congrArg Prod.fst h))
  cross P h := by
    obtain ⟨h1, h2⟩ := h
    refine ⟨by simp only [OnRay] at h1 ⊢; linear_combination h1, ?_⟩
    rcases h2 with ⟨a, b, n, hn, e⟩ | ⟨a, b, n, hn, e⟩
    · exact Or.inr ⟨neg_ne_zero.mpr a, b, rz - n, by omega, by dsimp only; rw [e, grid_neg hn]⟩
    · exact Or.inl ⟨a, margin_neg b, n, hn, e⟩
  surj P' h := by
    obtain ⟨h1, h2⟩ := h
    refine ⟨(P'.2, -P'.1), ⟨by simp only [OnRay] at h1 ⊢; linear_combination h1, ?_⟩, by simp⟩
    rcases h2 with ⟨a, b, n, hn, e⟩ | ⟨a, b, n, hn, e⟩
    · exact Or.inr ⟨a, margin_neg b, n, hn, e⟩
    · exact Or.inl ⟨neg_ne_zero.mp a, b, rz - n, by omega, by dsimp only; rw [e, grid_neg hn]⟩
  along P := by simp only [along]; ring
  hyp P Q := by
    have h1 := hh (Q.1 - P.1) (Q.2 - P.2)
    have h2 := hh (-Q.2 - -P.2) (Q.1 - P.1)
    refine (mul_self_inj h2.1 h1.1).1 ?_
    rw [h1.2, h2.2]
    ring
  pix P Q hP hQ hA hT := by
    obtain ⟨e1, e2⟩ := pix_parts hP hQ hA
    unfold turnPix
    rw [e1, e2]
    dsimp only
    rw [pixelIndex_neg (by linarith [hP.2.1, hQ.2.1]) (by linarith [hP.2.2, hQ.2.2]) hT.2]

theorem mirror_moves {hyp : K → K → K} (hh : IsHyp hyp) (rx rz : Nat) (yi sn cs : K) :
    Moves hyp rx rz yi sn cs rx rz (-yi) sn (-cs) (fun P => (-P.1, P.2)) (flipPix rx rz) where
  pos h := h
  pos' h := h
  inj P Q h := by
    dsimp only at h
    rw [Prod.mk.injEq, neg_inj] at h
    exact Prod.ext h.1 h.2
  cross P h := by
    obtain ⟨h1, h2⟩ := h
    refine ⟨by simp only [OnRay] at h1 ⊢; linear_combination -h1, ?_⟩
    rcases h2 with ⟨a, b, n, hn, e⟩ | ⟨a, b, n, hn, e⟩
    · exact Or.inl ⟨a, margin_neg b, n, hn, e⟩
    · exact Or.inr ⟨neg_ne_zero.mpr a, b, rx - n, by omega, by dsimp only; rw [e, grid_neg hn]⟩
  surj P' h := by
    obtain ⟨h1, h2⟩ := h
    refine ⟨(-P'.1, P'.2), ⟨by simp only [OnRay] at h1 ⊢; linear_combination -h1, ?_⟩, by simp⟩
    rcases h2 with ⟨a, b, n, hn, e⟩ | ⟨a, b, n, hn, e⟩
    · exact Or.inl ⟨a, margin_neg b, n, hn, e⟩
    · exact Or.inr ⟨neg_ne_zero.mp a, b, rx - n, by omega, by dsimp only; rw [e, grid_neg hn]⟩
  along P := by simp only [along]; ring
  hyp P Q := by
    have h1 := hh (Q.1 - P.1) (Q.2 - P.2)
    have h2 := hh (-Q.1 - -P.1) (Q.2 - P.2)
    refine (mul_self_inj h2.1 h1.1).1 ?_
    rw [h1.2, h2.2]
    ring
  pix P Q hP hQ hA hT := by
    obtain ⟨e1, e2⟩ := pix_parts hP hQ hA
    unfold flipPix
    rw [e1, e2]
    dsimp only
    rw [pixelIndex_neg (by linarith [hP.1.1, hQ.1.1]) (by linarith [hP.1.2, hQ.1.2]) hT.1]

theorem avoids_quarter {rx rz : Nat} {yi sn cs : K} (h : AvoidsCorners rx rz yi sn cs) :
    AvoidsCorners rz rx yi cs (-sn) := by
  intro n hn m hm he
  apply h m hm (rz - n) (by omega)
  rw [← grid_neg hn]
  simp only [OnRay] at he ⊢
  linear_combination he

theorem avoids_mirror {rx rz : Nat} {yi sn cs : K} (h : AvoidsCorners rx rz yi sn cs) :
    AvoidsCorners rx rz (-yi) sn (-cs) := by
  intro n hn m hm he
  apply h (rx - n) (by omega) m hm
  rw [← grid_neg hn]
  simp only [OnRay] at he ⊢
  linear_combination -he

end Generic

theorem ClearOfAxes.add_half_pi {θ : ℝ} (h : ClearOfAxes θ) : ClearOfAxes (θ + π / 2) := by
  intro k
  have e : θ + π / 2 - k * (π / 2) = θ - ((k - 1 : Int) : ℝ) * (π / 2) := by push_cast; ring
  rcases h (k - 1) with h1 | h1
  · left; push_cast at h1; linarith
  · right; rw [e]; exact h1

theorem ClearOfAxes.neg {θ : ℝ} (h : ClearOfAxes θ) : ClearOfAxes (-θ) := by
  intro k
  have e : -θ - k * (π / 2) = -(θ - ((-k : Int) : ℝ) * (π / 2)) := by push_cast; ring
  rcases h (-k) with h1 | h1
  · left; push_cast at h1; linarith
  · right; rw [e, abs_neg]; exact h1

/-- The ray of detector pixel `d` at angle `θ` meets no corner of the grid (specification). -/
def RayAvoidsCorners (rx rz dx : Nat) (c θ : ℝ) (d : Nat) : Prop :=
  AvoidsCorners rx rz (rayY dx d (mov dx c)) (sin θ) (cos θ)

theorem rayTrace_flag {θ : ℝ} (hc : ClearOfAxes θ) :
    ∃ q, FlagOk q (sin θ) (cos θ) ∧ ∀ (caps : Caps) (rx rz dx : Nat) (c : ℝ) (d : Nat),
      rayTrace caps rx rz dx c θ d = trace hypot caps q rx rz (rayY dx d (mov dx c)) (sin θ) (cos θ) := by
  obtain ⟨q, hq, _⟩ := calcQuadrant_defined (fmod2pi_lt θ)
  have hf := calcQuadrant_flag (fmod2pi_lt θ) hc.fmod q hq
  rw [sin_fmod2pi, cos_fmod2pi] at hf
  refine ⟨q, hf, fun caps rx rz dx c d => ?_⟩
  simp only [rayTrace, hq, Option.bind_eq_bind, Option.bind_some, sin_fmod2pi, cos_fmod2pi]

/-- **C164** The segments of pixel `d` at angle `θ + π/2` in the turned grid are those at angle `θ`, with the
pixels turned. -/
theorem quarter_segments (rx rz dx : Nat) (c θ : ℝ) (d : Nat) (hc : ClearOfAxes θ)
    (ha : RayAvoidsCorners rx rz dx c θ d) :
    ∃ segs segs', rayTrace (capsRecon rx rz) rx rz dx c θ d = some segs ∧
      rayTrace (capsRecon rz rx) rz rx dx c (θ + π / 2) d = some segs' ∧
      segs'.Perm (segs.map fun e => (turnPix rx rz e.1, e.2)) := by
  obtain ⟨q, hf, hq⟩ := rayTrace_flag hc
  obtain ⟨q', hf', hq'⟩ := rayTrace_flag hc.add_half_pi
  rw [hq, hq']
  rw [sin_add_pi_div_two, cos_add_pi_div_two] at hf' ⊢
  exact trace_moved hypot_isHyp (quarter_moves hypot_isHyp _ _ _ _ _) ha (avoids_quarter ha) hf hf'

/-- **C164** The segments of pixel `d` at angle `-θ` are those at angle `θ`, with the pixels mirrored. -/
theorem mirror_segments (rx rz dx : Nat) (c θ : ℝ) (d : Nat) (hc : ClearOfAxes θ)
    (ha : RayAvoidsCorners rx rz dx c θ d) :
    ∃ segs segs', rayTrace (capsRecon rx rz) rx rz dx c θ d = some segs ∧
      rayTrace (capsRecon rx rz) rx rz dx c (-θ) d = some segs' ∧
      segs'.Perm (segs.map fun e => (flipPix rx rz e.1, e.2)) := by
  obtain ⟨q, hf, hq⟩ := rayTrace_flag hc
  obtain ⟨q', hf', hq'⟩ := rayTrace_flag hc.neg
  rw [hq, hq']
  rw [sin_neg, cos_neg] at hf' ⊢
  have hf'' : FlagOk q' (sin θ) (-cos θ) := by
    unfold FlagOk at hf' ⊢
    rwa [mul_neg, ← neg_mul]
  have := trace_moved hypot_isHyp (mirror_moves hypot_isHyp _ _ _ _ _) ha (avoids_mirror ha) hf hf''
  rw [← trace_neg _ _ _ _ _ _ (sin θ) (-cos θ), neg_neg, neg_neg] at this
  exact this

end Tomopy.Ray
