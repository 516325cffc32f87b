import Verif.Ray.Axis
import Verif.Ray.Opposite

/-!
# Zeros around an object (C173)

An image of `rx × rz` pixels in the middle of one of `(rx + 2p) × (rz + 2q)` pixels that is zero elsewhere.
-/

set_option linter.unusedSectionVars false

namespace Tomopy.Ray

variable {K : Type*} [Field K] [LinearOrder K] [IsStrictOrderedRing K] [FloorRing K]

/-! ## Specification -/

/-- Where the ray meets a grid line in the closed image it is at least `1/100` away from the ends of that line. -/
def ClearOfBorder (rx rz : Nat) (yi sn cs : K) : Prop :=
  (sn ≠ 0 → ∀ n ≤ rz, ∀ x, OnRay yi sn cs (x, grid rz n) → -(rx : K) / 2 ≤ x → x ≤ (rx : K) / 2 → Margin rx x) ∧
  (cs ≠ 0 → ∀ n ≤ rx, ∀ y, OnRay yi sn cs (grid rx n, y) → -(rz : K) / 2 ≤ y → y ≤ (rz : K) / 2 → Margin rz y)

/-- `w'` holds the values of `w` in the middle and zeros around it; pixel `(ix, iy)` has the number
`iy + ix * rz`. -/
structure Surrounded (p q rx rz : Nat) (w w' : Int → K) : Prop where
  inner : ∀ ix < rx, ∀ iy < rz, w' ((iy + q + (ix + p) * (rz + 2 * q) : Nat) : Int) = w ((iy + ix * rz : Nat) : Int)
  outer : ∀ ix < rx + 2 * p, ∀ iy < rz + 2 * q, ¬ (p ≤ ix ∧ ix < p + rx ∧ q ≤ iy ∧ iy < q + rz) →
    w' ((iy + ix * (rz + 2 * q) : Nat) : Int) = 0

/-! ## The crossings of the larger grid -/

theorem grid_shift (r p n : Nat) : (grid (r + 2 * p) (n + p) : K) = grid r n := by
  simp only [grid]; push_cast; ring

theorem Margin.mono {r p : Nat} {v : K} (h : Margin r v) : Margin (r + 2 * p) v := by
  have : (0 : K) ≤ p := Nat.cast_nonneg p
  unfold Margin at h ⊢
  push_cast
  constructor <;> linarith [h.1, h.2]

theorem Margin.le {r : Nat} {v : K} (h : Margin r v) : -(r : K) / 2 ≤ v ∧ v ≤ (r : K) / 2 :=
  ⟨by linarith [h.1], by linarith [h.2]⟩

theorem grid_inner {r p n : Nat} (h1 : -(r : K) / 2 ≤ grid (r + 2 * p) n) (h2 : grid (r + 2 * p) n ≤ (r : K) / 2) :
    ∃ m ≤ r, n = m + p := by
  simp only [grid] at h1 h2
  push_cast at h1 h2
  have a : (p : K) ≤ n := by linarith
  have b : (n : K) ≤ r + p := by linarith
  have a' : p ≤ n := by exact_mod_cast a
  have b' : n ≤ r + p := by exact_mod_cast b
  exact ⟨n - p, by omega, by omega⟩

theorem aList_mem_iff {rx rz : Nat} {yi sn cs : K} {P : K × K} (hr : 0 < rx + rz) :
    P ∈ aList rx rz yi sn cs ↔ OnRay yi sn cs P ∧ sn ≠ 0 ∧ Margin rx P.1 ∧ ∃ n ≤ rz, P.2 = grid rz n := by
  rw [aList, List.mem_filterMap]
  simp only [List.mem_range, aPoint_iff hr]
  constructor
  · rintro ⟨n, hn, h1, h2, h3, h4⟩
    exact ⟨h1, h2, h3, n, by omega, h4⟩
  · rintro ⟨h1, h2, h3, n, hn, h4⟩
    exact ⟨n, by omega, h1, h2, h3, h4⟩

theorem bList_mem_iff {rx rz : Nat} {yi sn cs : K} {P : K × K} (hr : 0 < rx + rz) :
    P ∈ bList rx rz yi sn cs ↔ OnRay yi sn cs P ∧ cs ≠ 0 ∧ Margin rz P.2 ∧ ∃ n ≤ rx, P.1 = grid rx n := by
  rw [bList, List.mem_filterMap]
  simp only [List.mem_range, bPoint_iff hr]
  constructor
  · rintro ⟨n, hn, h1, h2, h3, h4⟩
    exact ⟨h1, h2, h3, n, by omega, h4⟩
  · rintro ⟨h1, h2, h3, n, hn, h4⟩
    exact ⟨n, by omega, h1, h2, h3, h4⟩

theorem isCrossing_mono {rx rz p q : Nat} {yi sn cs : K} {P : K × K} (h : IsCrossing rx rz yi sn cs P) :
    IsCrossing (rx + 2 * p) (rz + 2 * q) yi sn cs P := by
  refine ⟨h.1, ?_⟩
  rcases h.2 with ⟨h1, h2, n, hn, h3⟩ | ⟨h1, h2, n, hn, h3⟩
  · exact Or.inl ⟨h1, h2.mono, n + q, by omega, by rw [grid_shift, h3]⟩
  · exact Or.inr ⟨h1, h2.mono, n + p, by omega, by rw [grid_shift, h3]⟩

open Classical in
theorem aList_inner {rx rz p q : Nat} {yi sn cs : K} (hr : 0 < rx + rz) (hc : ClearOfBorder rx rz yi sn cs) :
    ((aList (rx + 2 * p) (rz + 2 * q) yi sn cs).filter fun P => decide (Kept rx rz P)).Perm
      (aList rx rz yi sn cs) := by
  have nd : ∀ a b : Nat, (aList a b yi sn cs).Nodup := fun a b =>
    (pairwise_aList a b yi sn cs).imp fun h e => by rw [e] at h; exact lt_irrefl _ h
  rw [List.perm_ext_iff_of_nodup ((nd _ _).filter _) (nd _ _)]
  intro P
  rw [List.mem_filter, aList_mem_iff hr, aList_mem_iff (by omega), decide_eq_true_iff]
  constructor
  · rintro ⟨⟨h1, h2, -, n, hn, h4⟩, hk⟩
    obtain ⟨m, hm, rfl⟩ := grid_inner (p := q) (h4 ▸ hk.2.1) (h4 ▸ hk.2.2)
    rw [grid_shift] at h4
    have h1' : OnRay yi sn cs (P.1, grid rz m) := by rw [← h4]; exact h1
    exact ⟨h1, h2, hc.1 h2 m hm P.1 h1' hk.1.1 hk.1.2, m, hm, h4⟩
  · rintro ⟨h1, h2, h3, n, hn, h4⟩
    refine ⟨⟨h1, h2, h3.mono, n + q, by omega, by rw [grid_shift, h4]⟩, h3.le, ?_⟩
    rw [h4]
    exact grid_bounds hn

open Classical in
theorem bList_inner {rx rz p q : Nat} {yi sn cs : K} (hr : 0 < rx + rz) (hc : ClearOfBorder rx rz yi sn cs) :
    ((bList (rx + 2 * p) (rz + 2 * q) yi sn cs).filter fun P => decide (Kept rx rz P)).Perm
      (bList rx rz yi sn cs) := by
  have nd : ∀ a b : Nat, (bList a b yi sn cs).Nodup := fun a b =>
    (pairwise_bList a b yi sn cs).imp fun h e => by rw [e] at h; exact lt_irrefl _ h
  rw [List.perm_ext_iff_of_nodup ((nd _ _).filter _) (nd _ _)]
  intro P
  rw [List.mem_filter, bList_mem_iff hr, bList_mem_iff (by omega), decide_eq_true_iff]
  constructor
  · rintro ⟨⟨h1, h2, -, n, hn, h4⟩, hk⟩
    obtain ⟨m, hm, rfl⟩ := grid_inner (p := p) (h4 ▸ hk.1.1) (h4 ▸ hk.1.2)
    rw [grid_shift] at h4
    have h1' : OnRay yi sn cs (grid rx m, P.2) := by rw [← h4]; exact h1
    exact ⟨h1, h2, hc.2 h2 m hm P.2 h1' hk.2.1 hk.2.2, m, hm, h4⟩
  · rintro ⟨h1, h2, h3, n, hn, h4⟩
    refine ⟨⟨h1, h2, h3.mono, n + p, by omega, by rw [grid_shift, h4]⟩, ?_, h3.le⟩
    rw [h4]
    exact grid_bounds hn

open Classical in
theorem crossings_inner {rx rz p q : Nat} {yi sn cs : K} (hr : 0 < rx + rz) (hc : ClearOfBorder rx rz yi sn cs)
    (g g' : Int) :
    ((crossings g' (rx + 2 * p) (rz + 2 * q) yi sn cs).filter fun P => decide (Kept rx rz P)).Perm
      (crossings g rx rz yi sn cs) := by
  refine ((crossings_perm g' _ _ yi sn cs).filter _).trans ?_
  rw [List.filter_append]
  exact ((aList_inner hr hc).append (bList_inner hr hc)).trans (crossings_perm g rx rz yi sn cs).symm

/-! ## Leaving the image -/

theorem exit_line {h m v : K} (hm : -h ≤ m ∧ m ≤ h) (hv : ¬ (-h ≤ v ∧ v ≤ h)) :
    ∃ t, 0 ≤ t ∧ t < 1 ∧ (m + t * (v - m) = h ∨ m + t * (v - m) = -h) ∧ v ≠ m := by
  rcases lt_or_ge h v with h1 | h1
  · have hd : 0 < v - m := by linarith
    refine ⟨(h - m) / (v - m), div_nonneg (by linarith) hd.le, (div_lt_one hd).mpr (by linarith), Or.inl ?_, by
      intro e; linarith⟩
    rw [div_mul_cancel₀ _ hd.ne']; ring
  · have h2 : v < -h := by
      by_contra hc
      exact hv ⟨not_lt.mp hc, h1⟩
    have hd : 0 < m - v := by linarith
    refine ⟨(m + h) / (m - v), div_nonneg (by linarith) hd.le, (div_lt_one hd).mpr (by linarith), Or.inr ?_, by
      intro e; linarith⟩
    have e : (m + h) / (m - v) * (v - m) = -(m + h) := by
      rw [show v - m = -(m - v) by ring, mul_neg, div_mul_cancel₀ _ hd.ne']
    rw [e]; ring

theorem between_line {h m v t : K} (hm : -h ≤ m ∧ m ≤ h) (hv : -h ≤ v ∧ v ≤ h) (h0 : 0 ≤ t) (h1 : t ≤ 1) :
    -h ≤ m + t * (v - m) ∧ m + t * (v - m) ≤ h := by
  have e : m + t * (v - m) = (1 - t) * m + t * v := by ring
  have a : 0 ≤ 1 - t := by linarith
  rw [e]
  constructor
  · nlinarith [mul_le_mul_of_nonneg_left hm.1 a, mul_le_mul_of_nonneg_left hv.1 h0]
  · nlinarith [mul_le_mul_of_nonneg_left hm.2 a, mul_le_mul_of_nonneg_left hv.2 h0]

/-- A segment from a point in the box `[-a, a] × [-b, b]` to one outside of it leaves it somewhere. -/
theorem exit_box {a b : K} {M P : K × K} (hM : (-a ≤ M.1 ∧ M.1 ≤ a) ∧ (-b ≤ M.2 ∧ M.2 ≤ b))
    (hP : ¬ ((-a ≤ P.1 ∧ P.1 ≤ a) ∧ (-b ≤ P.2 ∧ P.2 ≤ b))) :
    ∃ t, 0 ≤ t ∧ t < 1 ∧
      ((-a ≤ M.1 + t * (P.1 - M.1) ∧ M.1 + t * (P.1 - M.1) ≤ a) ∧
        (-b ≤ M.2 + t * (P.2 - M.2) ∧ M.2 + t * (P.2 - M.2) ≤ b)) ∧
      (((M.1 + t * (P.1 - M.1) = a ∨ M.1 + t * (P.1 - M.1) = -a) ∧ P.1 ≠ M.1) ∨
        ((M.2 + t * (P.2 - M.2) = b ∨ M.2 + t * (P.2 - M.2) = -b) ∧ P.2 ≠ M.2)) := by
  have haa : -a ≤ a := hM.1.1.trans hM.1.2
  have hbb : -b ≤ b := hM.2.1.trans hM.2.2
  by_cases h1 : -a ≤ P.1 ∧ P.1 ≤ a
  · have h2 : ¬ (-b ≤ P.2 ∧ P.2 ≤ b) := fun h => hP ⟨h1, h⟩
    obtain ⟨t, t0, t1, ht, hne⟩ := exit_line hM.2 h2
    refine ⟨t, t0, t1, ⟨between_line hM.1 h1 t0 t1.le, ?_⟩, Or.inr ⟨ht, hne⟩⟩
    rcases ht with e | e <;> rw [e]
    · exact ⟨hbb, le_rfl⟩
    · exact ⟨le_rfl, hbb⟩
  · obtain ⟨t, t0, t1, ht, hne⟩ := exit_line hM.1 h1
    have hX : -a ≤ M.1 + t * (P.1 - M.1) ∧ M.1 + t * (P.1 - M.1) ≤ a := by
      rcases ht with e | e <;> rw [e]
      · exact ⟨haa, le_rfl⟩
      · exact ⟨le_rfl, haa⟩
    by_cases h2 : -b ≤ M.2 + t * (P.2 - M.2) ∧ M.2 + t * (P.2 - M.2) ≤ b
    · exact ⟨t, t0, t1, ⟨hX, h2⟩, Or.inl ⟨ht, hne⟩⟩
    · obtain ⟨s, s0, s1, hs, hne2⟩ := exit_line hM.2 h2
      have e1 : M.2 + s * (M.2 + t * (P.2 - M.2) - M.2) = M.2 + s * t * (P.2 - M.2) := by ring
      have e2 : M.1 + s * (M.1 + t * (P.1 - M.1) - M.1) = M.1 + s * t * (P.1 - M.1) := by ring
      rw [e1] at hs
      have hb := between_line hM.1 hX s0 s1.le
      rw [e2] at hb
      refine ⟨s * t, mul_nonneg s0 t0, by nlinarith, ⟨hb, ?_⟩, Or.inr ⟨hs, ?_⟩⟩
      · rcases hs with e | e <;> rw [e]
        · exact ⟨hbb, le_rfl⟩
        · exact ⟨le_rfl, hbb⟩
      · intro e
        apply hne2
        rw [e, sub_self, mul_zero, add_zero]

theorem onRay_between {yi sn cs : K} {M P : K × K} (hM : OnRay yi sn cs M) (hP : OnRay yi sn cs P) (t : K) :
    OnRay yi sn cs (M.1 + t * (P.1 - M.1), M.2 + t * (P.2 - M.2)) := by
  simp only [OnRay] at hM hP ⊢
  linear_combination (1 - t) * hM + t * hP

theorem onRay_mid {yi sn cs : K} {P Q : K × K} (hP : OnRay yi sn cs P) (hQ : OnRay yi sn cs Q) :
    OnRay yi sn cs ((P.1 + Q.1) / 2, (P.2 + Q.2) / 2) := by
  simp only [OnRay] at hP hQ ⊢
  linear_combination (1 / 2) * hP + (1 / 2) * hQ

/-- Between a point in the image and one outside there is a crossing of the grid. -/
theorem exit_crossing {rx rz : Nat} {yi sn cs : K} (hc : ClearOfBorder rx rz yi sn cs) (h0 : sn ≠ 0 ∨ cs ≠ 0)
    {M P : K × K}
    (hM : Kept rx rz M) (hP : ¬ Kept rx rz P) (rM : OnRay yi sn cs M) (rP : OnRay yi sn cs P) :
    ∃ t, 0 ≤ t ∧ t < 1 ∧ IsCrossing rx rz yi sn cs (M.1 + t * (P.1 - M.1), M.2 + t * (P.2 - M.2)) := by
  have ex : -(rx : K) / 2 = -((rx : K) / 2) := by ring
  have ez : -(rz : K) / 2 = -((rz : K) / 2) := by ring
  unfold Kept at hM hP
  rw [ex, ez] at hM hP
  obtain ⟨t, t0, t1, hb, hl⟩ := exit_box hM hP
  refine ⟨t, t0, t1, ?_⟩
  have rX := onRay_between rM rP t
  have hpar := onRay_parallel rM rP
  refine ⟨rX, ?_⟩
  rcases hl with ⟨hx, hne⟩ | ⟨hy, hne⟩
  · have hcs : cs ≠ 0 := by
      rintro rfl
      have hsn : sn ≠ 0 := by rcases h0 with h | h <;> [exact h; exact absurd rfl h]
      rw [mul_zero] at hpar
      rcases mul_eq_zero.mp hpar with h | h
      · exact hne (sub_eq_zero.mp h)
      · exact hsn h
    obtain ⟨n, hn, e⟩ : ∃ n ≤ rx, M.1 + t * (P.1 - M.1) = grid rx n := by
      rcases hx with e | e
      · exact ⟨rx, le_rfl, by rw [e, grid_self]⟩
      · exact ⟨0, Nat.zero_le _, by rw [e, grid_zero, ex]⟩
    right
    refine ⟨hcs, hc.2 hcs n hn _ ?_ (ez ▸ hb.2.1) hb.2.2, n, hn, e⟩
    rw [← e]
    exact rX
  · have hsn : sn ≠ 0 := by
      rintro rfl
      have hcs : cs ≠ 0 := by rcases h0 with h | h <;> [exact absurd rfl h; exact h]
      rw [mul_zero] at hpar
      rcases mul_eq_zero.mp hpar.symm with h | h
      · exact hne (sub_eq_zero.mp h)
      · exact hcs h
    obtain ⟨n, hn, e⟩ : ∃ n ≤ rz, M.2 + t * (P.2 - M.2) = grid rz n := by
      rcases hy with e | e
      · exact ⟨rz, le_rfl, by rw [e, grid_self]⟩
      · exact ⟨0, Nat.zero_le _, by rw [e, grid_zero, ez]⟩
    left
    refine ⟨hsn, hc.1 hsn n hn _ ?_ (ex ▸ hb.1.1) hb.1.2, n, hn, e⟩
    rw [← e]
    exact rX

/-! ## Neighbours in a sorted list -/

theorem sorted_between {α : Type*} {f : α → K} {l1 l2 : List α} {P Q X : α}
    (h : (l1 ++ P :: Q :: l2).Pairwise fun a b => f a ≤ f b) (hX : X ∈ l1 ++ P :: Q :: l2) :
    f X ≤ f P ∨ f Q ≤ f X := by
  rw [List.pairwise_append] at h
  obtain ⟨-, h2, h3⟩ := h
  rw [List.pairwise_cons, List.pairwise_cons] at h2
  rw [List.mem_append, List.mem_cons, List.mem_cons] at hX
  rcases hX with hX | rfl | rfl | hX
  · exact Or.inl (h3 X hX P (by simp))
  · exact Or.inl le_rfl
  · exact Or.inr le_rfl
  · exact Or.inr (h2.2.1 X hX)

/-- Sum of `v P Q` over neighbours. -/
def pairSum {α : Type*} (v : α → α → K) : List α → K
  | [] => 0
  | [_] => 0
  | P :: Q :: l => v P Q + pairSum v (Q :: l)

theorem calcDist_sum (hyp : K → K → K) (rx rz : Nat) (w : Int → K) : ∀ l : List (K × K),
    ((calcDist hyp rx rz l).map fun e => w e.1 * e.2).sum =
      pairSum (fun P Q => w (pixelIndex rz P.2 Q.2 + pixelIndex rx P.1 Q.1 * (rz : Int)) *
        hyp (Q.1 - P.1) (Q.2 - P.2)) l := by
  intro l
  fun_induction calcDist hyp rx rz l with
  | case1 => rfl
  | case2 => rfl
  | case3 P Q l ih => rw [List.map_cons, List.sum_cons, ih, pairSum]

theorem pairSum_congr {α : Type*} {v v' : α → α → K} : ∀ {l : List α}, l.IsChain (fun P Q => v P Q = v' P Q) →
    pairSum v l = pairSum v' l := by
  intro l
  fun_induction pairSum v l with
  | case1 => intro _; rfl
  | case2 => intro _; rfl
  | case3 P Q l ih =>
    intro h
    rw [List.isChain_cons_cons] at h
    rw [pairSum, h.1, ih h.2]

/-- Only neighbours that both have the property count; those with the property are consecutive. -/
theorem pairSum_filter {α : Type*} {v : α → α → K} {b : α → Bool} : ∀ {l : List α},
    l.IsChain (fun P Q => ¬ (b P = true ∧ b Q = true) → v P Q = 0) →
    (∀ P Q R, [P, Q, R].Sublist l → b P = true → b R = true → b Q = true) →
    pairSum v l = pairSum v (l.filter b) := by
  intro l
  fun_induction pairSum v l with
  | case1 => intro _ _; rfl
  | case2 P =>
    intro _ _
    rw [List.filter_cons]
    split_ifs <;> rfl
  | case3 P Q l ih =>
    intro h hc
    rw [List.isChain_cons_cons] at h
    have ih' := ih h.2 fun A B C hs => hc A B C (hs.cons P)
    by_cases hP : b P = true
    · by_cases hQ : b Q = true
      · rw [ih', List.filter_cons_of_pos hP, List.filter_cons_of_pos hQ, pairSum]
      · have hn : l.filter b = [] := by
          rw [List.filter_eq_nil_iff]
          intro R hR hbR
          exact hQ (hc P Q R ((List.singleton_sublist.mpr hR).cons_cons Q |>.cons_cons P) hP hbR)
        rw [h.1 fun h => hQ h.2, zero_add, ih', List.filter_cons_of_pos hP, List.filter_cons_of_neg hQ, hn]
        rfl
    · rw [h.1 fun h => hP h.1, zero_add, ih', List.filter_cons_of_neg hP]

theorem kept_convex {rx rz : Nat} {yi sn cs : K} (h0 : sn ≠ 0 ∨ cs ≠ 0) {P Q R : K × K} (rP : OnRay yi sn cs P)
    (rQ : OnRay yi sn cs Q) (rR : OnRay yi sn cs R) (h1 : along sn cs P ≤ along sn cs Q)
    (h2 : along sn cs Q ≤ along sn cs R) (hP : Kept rx rz P) (hR : Kept rx rz R) : Kept rx rz Q := by
  rcases (h1.trans h2).eq_or_lt with e | hlt
  · have : P = Q := along_inj h0 rP rQ (le_antisymm h1 (by rw [e]; exact h2))
    rw [← this]; exact hP
  · have hd : 0 < along sn cs R - along sn cs P := by linarith
    have t0 : 0 ≤ (along sn cs Q - along sn cs P) / (along sn cs R - along sn cs P) :=
      div_nonneg (by linarith) hd.le
    have t1 : (along sn cs Q - along sn cs P) / (along sn cs R - along sn cs P) ≤ 1 :=
      (div_le_one hd).mpr (by linarith)
    have et : (along sn cs Q - along sn cs P) / (along sn cs R - along sn cs P) *
        (along sn cs R - along sn cs P) = along sn cs Q - along sn cs P := div_mul_cancel₀ _ hd.ne'
    generalize (along sn cs Q - along sn cs P) / (along sn cs R - along sn cs P) = t at t0 t1 et
    have hX := onRay_between rP rR t
    have e : (P.1 + t * (R.1 - P.1), P.2 + t * (R.2 - P.2)) = Q := by
      refine along_inj h0 hX rQ ?_
      have : along sn cs (P.1 + t * (R.1 - P.1), P.2 + t * (R.2 - P.2)) =
          along sn cs P + t * (along sn cs R - along sn cs P) := by
        unfold along; ring
      rw [this, et]; ring
    rw [← e]
    have ex : -(rx : K) / 2 = -((rx : K) / 2) := by ring
    have ez : -(rz : K) / 2 = -((rz : K) / 2) := by ring
    unfold Kept at hP hR ⊢
    rw [ex, ez] at hP hR ⊢
    exact ⟨between_line hP.1 hR.1 t0 t1, between_line hP.2 hR.2 t0 t1⟩

theorem sublist3 {α : Type*} {r : α → α → Prop} {P Q R : α} {l : List α} (hs : [P, Q, R].Sublist l)
    (h : l.Pairwise r) : r P Q ∧ r Q R := by
  have := h.sublist hs
  simp only [List.pairwise_cons, List.mem_cons, List.not_mem_nil, or_false, forall_eq_or_imp, forall_eq] at this
  exact ⟨this.1.1, this.2.1⟩

/-! ## C173 for one ray -/

/-- The pixel of a segment in the middle part. -/
theorem pixel_shift (r p : Nat) (v0 v1 : K) : pixelIndex (r + 2 * p) v0 v1 = pixelIndex r v0 v1 + p := by
  rw [pixelIndex_eq, pixelIndex_eq, ← Int.floor_add_natCast]
  congr 1
  push_cast
  ring

/-- **C173 (partial)** for one ray: zeros around the image do not change the ray sum, if the ray stays away from
the ends of the grid lines of the image. -/
theorem trace_surrounded {hyp : K → K → K} (hh : IsHyp hyp) {rx rz : Nat} (p q : Nat) (hr : 0 < rx + rz)
    {yi sn cs : K} (h0 : sn ≠ 0 ∨ cs ≠ 0) (hc : ClearOfBorder rx rz yi sn cs) {g g' : Int} (hg : FlagOk g sn cs)
    (hg' : FlagOk g' sn cs) {w w' : Int → K} (hw : Surrounded p q rx rz w w') :
    ∃ segs segs', trace hyp (capsRecon rx rz) g rx rz yi sn cs = some segs ∧
      trace hyp (capsRecon (rx + 2 * p) (rz + 2 * q)) g' (rx + 2 * p) (rz + 2 * q) yi sn cs = some segs' ∧
      (segs'.map fun e => w' e.1 * e.2).sum = (segs.map fun e => w e.1 * e.2).sum := by
  classical
  have hle := crossings_le rx rz yi sn cs
  have hle' := crossings_le (rx + 2 * p) (rz + 2 * q) yi sn cs
  rw [trace_eq, trace_eq, if_pos (by simp only [capsRecon]; omega),
    if_pos (by simp only [capsRecon]; omega)]
  refine ⟨_, _, rfl, rfl, ?_⟩
  change ((calcDist hyp (rx + 2 * p) (rz + 2 * q) (crossings g' (rx + 2 * p) (rz + 2 * q) yi sn cs)).map
    fun e => w' e.1 * e.2).sum = ((calcDist hyp rx rz (crossings g rx rz yi sn cs)).map fun e => w e.1 * e.2).sum
  have hperm := crossings_inner (p := p) (q := q) hr hc g g'
  have hal := crossings_along g rx rz yi sn cs hg
  have hal' := crossings_along g' (rx + 2 * p) (rz + 2 * q) yi sn cs hg'
  have hon : ∀ P ∈ crossings g' (rx + 2 * p) (rz + 2 * q) yi sn cs, OnRay yi sn cs P := fun P h => onRay_crossings h
  -- the crossings in the image
  have hlist := sorted_unique h0 hperm (fun P h => onRay_crossings h) hal
    (hal'.imp (fun h => h.filter _) fun h => h.filter _)
  have hsmall : ((calcDist hyp rx rz (crossings g rx rz yi sn cs)).map fun e => w e.1 * e.2).sum =
      ((calcDist hyp rx rz ((crossings g' (rx + 2 * p) (rz + 2 * q) yi sn cs).filter
        fun P => decide (Kept rx rz P))).map fun e => w e.1 * e.2).sum := by
    rcases hlist with e | e
    · rw [e]
    · rw [e, calcDist_reverse hh]
      exact (((List.reverse_perm _).map _).sum_eq).symm
  have hapart : ((crossings g' (rx + 2 * p) (rz + 2 * q) yi sn cs).filter
      fun P => decide (Kept rx rz P)).Pairwise (Apart rx rz) := by
    refine (hperm.pairwise_iff fun {_ _} h => Apart.symm h).mpr (crossings_apart g rx rz yi sn cs)
  rw [hsmall, calcDist_sum, calcDist_sum, pairSum_filter (b := fun P => decide (Kept rx rz P))]
  · refine pairSum_congr ?_
    have hk : ∀ P ∈ (crossings g' (rx + 2 * p) (rz + 2 * q) yi sn cs).filter (fun P => decide (Kept rx rz P)),
        Kept rx rz P := fun P hP => by simpa using (List.mem_filter.mp hP).2
    refine List.Pairwise.isChain (hapart.imp_of_mem ?_)
    intro P Q hP hQ hA
    obtain ⟨ix', hix', hex, -, -⟩ := pixelIndex_mem (r := rx) (v0 := P.1) (v1 := Q.1)
      (by linarith [(hk P hP).1.1, (hk Q hQ).1.1])
      (by rcases hA.1 with h | h <;> linarith [(hk P hP).1.2, (hk Q hQ).1.2])
    obtain ⟨iy', hiy', hey, -, -⟩ := pixelIndex_mem (r := rz) (v0 := P.2) (v1 := Q.2)
      (by linarith [(hk P hP).2.1, (hk Q hQ).2.1])
      (by rcases hA.2 with h | h <;> linarith [(hk P hP).2.2, (hk Q hQ).2.2])
    have e := hw.inner ix' hix' iy' hiy'
    rw [pixel_shift, pixel_shift, hex, hey]
    push_cast at e ⊢
    rw [e]
  · rw [List.isChain_iff_getElem]
    intro i hi hnk
    have hi0 : i < (crossings g' (rx + 2 * p) (rz + 2 * q) yi sn cs).length := by omega
    have mP := List.getElem_mem (l := crossings g' (rx + 2 * p) (rz + 2 * q) yi sn cs) (n := i) hi0
    have mQ := List.getElem_mem (l := crossings g' (rx + 2 * p) (rz + 2 * q) yi sn cs) (n := i + 1) hi
    have hA := List.pairwise_iff_getElem.mp (crossings_apart g' (rx + 2 * p) (rz + 2 * q) yi sn cs) i (i + 1) hi0 hi
      (by omega)
    have hsplit : crossings g' (rx + 2 * p) (rz + 2 * q) yi sn cs =
        (crossings g' (rx + 2 * p) (rz + 2 * q) yi sn cs).take i ++
          (crossings g' (rx + 2 * p) (rz + 2 * q) yi sn cs)[i] ::
          (crossings g' (rx + 2 * p) (rz + 2 * q) yi sn cs)[i + 1] ::
          (crossings g' (rx + 2 * p) (rz + 2 * q) yi sn cs).drop (i + 2) := by
      rw [← List.drop_eq_getElem_cons, ← List.drop_eq_getElem_cons, List.take_append_drop]
    generalize hPe : (crossings g' (rx + 2 * p) (rz + 2 * q) yi sn cs)[i] = P at mP hA hsplit hnk ⊢
    generalize hQe : (crossings g' (rx + 2 * p) (rz + 2 * q) yi sn cs)[i + 1] = Q at mQ hA hsplit hnk ⊢
    obtain ⟨ix, iy, hix, hiy, hmid, hpix⟩ := segment_pixel (crossings_kept mP) (crossings_kept mQ) hA
    rw [hpix]
    by_cases hin : p ≤ ix ∧ ix < p + rx ∧ q ≤ iy ∧ iy < q + rz
    · have rP := hon P mP
      have rQ := hon Q mQ
      have hMk : Kept rx rz ((P.1 + Q.1) / 2, (P.2 + Q.2) / 2) := by
        obtain ⟨m1, m2, m3, m4⟩ := hmid
        simp only [grid] at m1 m2 m3 m4
        push_cast at m1 m2 m3 m4
        have a1 : (p : K) ≤ ix := by exact_mod_cast hin.1
        have a2 : (ix : K) + 1 ≤ p + rx := by exact_mod_cast hin.2.1
        have a3 : (q : K) ≤ iy := by exact_mod_cast hin.2.2.1
        have a4 : (iy : K) + 1 ≤ q + rz := by exact_mod_cast hin.2.2.2
        refine ⟨⟨?_, ?_⟩, ?_, ?_⟩ <;> dsimp only <;> linarith
      have rM := onRay_mid rP rQ
      -- one of the two is outside: then they are the same point
      have key : ∀ A, (A = P ∨ A = Q) → ¬ Kept rx rz A → along sn cs P = along sn cs Q := by
        intro A hAA hkA
        have rA : OnRay yi sn cs A := by rcases hAA with rfl | rfl <;> assumption
        obtain ⟨t, t0, t1, hX⟩ := exit_crossing hc h0 hMk hkA rM rA
        have hXm := (mem_crossings (q := g') (by omega)).mpr (isCrossing_mono (p := p) (q := q) hX)
        have hXa : along sn cs ((P.1 + Q.1) / 2 + t * (A.1 - (P.1 + Q.1) / 2),
            (P.2 + Q.2) / 2 + t * (A.2 - (P.2 + Q.2) / 2)) =
            (along sn cs P + along sn cs Q) / 2 + t * (along sn cs A - (along sn cs P + along sn cs Q) / 2) := by
          unfold along; ring
        rw [hsplit] at hXm hal'
        have hcase : ∀ u v x : K, (x = (u + v) / 2 + t * (u - (u + v) / 2) ∨ x = (u + v) / 2 + t * (v - (u + v) / 2)) →
            u ≤ v → (x ≤ u ∨ v ≤ x) → u = v := by
          intro u v x hx huv hor
          by_contra hne
          have hlt : u < v := lt_of_le_of_ne huv hne
          have hpos : 0 < (v - u) / 2 * (1 - t) := mul_pos (by linarith) (by linarith)
          have hnn : 0 ≤ (v - u) / 2 * t := mul_nonneg (by linarith) t0
          rcases hx with rfl | rfl <;> rcases hor with h | h <;> nlinarith
        rcases hal' with h | h
        · have hor := sorted_between h hXm
          have huv : along sn cs P ≤ along sn cs Q :=
            (List.pairwise_cons.mp (List.pairwise_append.mp h).2.1).1 Q (by simp)
          refine hcase _ _ _ ?_ huv hor
          rw [hXa]
          rcases hAA with rfl | rfl
          · exact Or.inl rfl
          · exact Or.inr rfl
        · have hor := sorted_between (f := fun P => -along sn cs P) (h.imp fun h => neg_le_neg h) hXm
          have huv : along sn cs Q ≤ along sn cs P :=
            (List.pairwise_cons.mp (List.pairwise_append.mp h).2.1).1 Q (by simp)
          refine (hcase (along sn cs Q) (along sn cs P) _ ?_ huv
            (hor.symm.imp (fun h => neg_le_neg_iff.mp h) fun h => neg_le_neg_iff.mp h)).symm
          rw [hXa, add_comm (along sn cs Q)]
          rcases hAA with rfl | rfl
          · exact Or.inr rfl
          · exact Or.inl rfl
      have heq : P = Q := by
        refine along_inj h0 rP rQ ?_
        by_cases hkP : Kept rx rz P
        · refine key Q (Or.inr rfl) fun hkQ => hnk ?_
          exact ⟨decide_eq_true hkP, decide_eq_true hkQ⟩
        · exact key P (Or.inl rfl) hkP
      rw [heq, sub_self, sub_self, hyp_zero hh, mul_zero]
    · rw [hw.outer ix hix iy hiy hin, zero_mul]
  · intro P Q R hs hP hR
    have hP' : Kept rx rz P := of_decide_eq_true hP
    have hR' : Kept rx rz R := of_decide_eq_true hR
    have mP := hon P (hs.subset (by simp))
    have mQ := hon Q (hs.subset (by simp))
    have mR := hon R (hs.subset (by simp))
    refine decide_eq_true ?_
    rcases hal' with h | h
    · obtain ⟨a, b⟩ := sublist3 hs h
      exact kept_convex h0 mP mQ mR a b hP' hR'
    · obtain ⟨a, b⟩ := sublist3 hs h
      exact kept_convex h0 mR mQ mP b a hR' hP'

end Tomopy.Ray
