import Verif.Sym.Mirror
import Verif.Corr.Median3d

/-! C202: the three-dimensional median filters of turned and rescaled volumes. -/

set_option linter.unusedSectionVars false

namespace Tomopy.Sym
open Tomopy.Corr Tomopy.Num Tomopy.Par

section
variable {K : Type} [LinearOrder K] [Field K] [IsStrictOrderedRing K]

/-- Specification: `res` is what `median_filter3d` (`dif = 0`, misc/corr.py:355-410) or `remove_outlier3d`
(misc/corr.py:413-471) with half size `r` stores for the volume `vol`, with some schedule of the threads.  The output
array starts as a copy of the input unless `dif = 0`, where it starts with anything. -/
def Filtered3 (r dZ dY dX : Nat) (dif : K) (vol res : Nat → Nat → Nat → K) : Prop :=
  ∃ (m : Cell → K) (sched : List Nat), Holds dZ dY dX (fun a => m (.input a)) vol ∧
    (dif ≠ 0 → Holds dZ dY dX (fun a => m (.output a)) vol) ∧
    (Config.exec ⟨medTask r dX dY dZ dif, m⟩ sched).Finished ∧
    Holds dZ dY dX (fun a => (Config.exec ⟨medTask r dX dY dZ dif, m⟩ sched).mem (.output a)) res

theorem filtered3_pixel {r dZ dY dX : Nat} {dif : K} {vol res : Nat → Nat → Nat → K}
    (h : Filtered3 r dZ dY dX dif vol res) {z y x : Nat} (hz : z < dZ) (hy : y < dY) (hx : x < dX) :
    ∃ med, IsRank (window3 r dZ dY dX vol z y x) ((2 * r + 1) ^ 3 / 2) med ∧
      res z y x = if dif ≤ |vol z y x - med| then med else vol z y x := by
  obtain ⟨m, s, h1, h2, h3, h4⟩ := h
  rw [← h4 z hz y hy x hx]
  by_cases hd : dif = 0
  · subst hd
    refine ⟨_, (median_filter3d_spec r dZ dY dX vol m h1 s h3).2 z hz y hy x hx, ?_⟩
    rw [if_pos (abs_nonneg _)]
  · obtain ⟨med, e1, e2, e3⟩ := remove_outlier3d_spec r dZ dY dX dif vol m h1 (h2 hd) s h3 z hz y hy x hx
    refine ⟨med, e1, ?_⟩
    split
    · next h => exact e2 h
    · next h => exact e3 (not_le.1 h)

theorem filtered3_exists (r dZ dY dX : Nat) (dif : K) (vol : Nat → Nat → Nat → K) (hY : 0 < dY) (hX : 0 < dX) :
    ∃ res, Filtered3 r dZ dY dX dif vol res := by
  obtain ⟨f, hf⟩ : ∃ f : Nat → K, Holds dZ dY dX f vol := by
    refine ⟨fun a => vol (a / (dY * dX)) (a % (dY * dX) / dX) (a % dX), ?_⟩
    intro z hz y hy x hx
    have hl : y * dX + x < dY * dX := by
      have : (y + 1) * dX ≤ dY * dX := Nat.mul_le_mul_right _ hy
      rw [Nat.add_mul, Nat.one_mul] at this
      omega
    have hp : 0 < dY * dX := Nat.mul_pos hY hX
    have e1 : (z * (dY * dX) + y * dX + x) / (dY * dX) = z := by
      rw [Nat.add_assoc, Nat.add_comm, Nat.add_mul_div_right _ _ hp, Nat.div_eq_of_lt hl, Nat.zero_add]
    have e2 : (z * (dY * dX) + y * dX + x) % (dY * dX) = y * dX + x := by
      rw [Nat.add_assoc, Nat.add_comm, Nat.add_mul_mod_self_right, Nat.mod_eq_of_lt hl]
    have e3 : (y * dX + x) / dX = y := by
      rw [Nat.add_comm, Nat.add_mul_div_right _ _ hX, Nat.div_eq_of_lt hx, Nat.zero_add]
    have e4 : (z * (dY * dX) + y * dX + x) % dX = x := by
      rw [show z * (dY * dX) + y * dX + x = x + (z * dY + y) * dX by ring, Nat.add_mul_mod_self_right,
        Nat.mod_eq_of_lt hx]
    dsimp only
    rw [e1, e2, e3, e4]
  obtain ⟨s, hs⟩ := median3d_exists r dX dY dZ dif (fun c => match c with | .input a => f a | .output a => f a)
  exact ⟨fun z y x => (Config.exec ⟨medTask r dX dY dZ dif, _⟩ s).mem (.output (z * (dY * dX) + y * dX + x)),
    _, s, hf, fun _ => hf, hs, fun _ _ _ _ _ _ => rfl⟩

/-! ### windows -/

theorem perm_flatMap_comm {α β γ : Type} (A : List α) (B : List β) (g : α → β → List γ) :
    (A.flatMap fun a => B.flatMap fun b => g a b).Perm (B.flatMap fun b => A.flatMap fun a => g a b) := by
  induction A with
  | nil => simp
  | cons a A ih =>
    simp only [List.flatMap_cons]
    exact (List.Perm.append_left _ ih).trans (List.flatMap_append_perm B _ _)

/-! ### turned volumes -/

/-- Two results agree at a voxel if the windows hold the same values and so do the voxels. -/
theorem pixel_eq {r dZ dY dX dZ' dY' dX' : Nat} {dif : K} {vol res vol' res' : Nat → Nat → Nat → K}
    (h : Filtered3 r dZ dY dX dif vol res) (h' : Filtered3 r dZ' dY' dX' dif vol' res')
    {z y x z' y' x' : Nat} (hz : z < dZ) (hy : y < dY) (hx : x < dX) (hz' : z' < dZ') (hy' : y' < dY') (hx' : x' < dX')
    (hp : (window3 r dZ' dY' dX' vol' z' y' x').Perm (window3 r dZ dY dX vol z y x))
    (hv : vol' z' y' x' = vol z y x) : res' z' y' x' = res z y x := by
  obtain ⟨a, a1, a2⟩ := filtered3_pixel h hz hy hx
  obtain ⟨b, b1, b2⟩ := filtered3_pixel h' hz' hy' hx'
  rw [a2, b2, hv, (b1.perm hp).unique a1]

/-- **C202** Exchanging the last two axes exchanges them in the result. -/
theorem median3d_swap_yx (r dZ dY dX : Nat) (dif : K) (vol vol' res res' : Nat → Nat → Nat → K)
    (hv : ∀ z < dZ, ∀ y < dY, ∀ x < dX, vol' z x y = vol z y x)
    (h : Filtered3 r dZ dY dX dif vol res) (h' : Filtered3 r dZ dX dY dif vol' res') :
    ∀ z < dZ, ∀ y < dY, ∀ x < dX, res' z x y = res z y x := by
  intro z hz y hy x hx
  refine pixel_eq h h' hz hy hx hz hx hy ?_ (hv z hz y hy x hx)
  unfold window3
  refine List.Perm.trans (List.Perm.of_eq ?_) (perm_flatMap_comm _ _ _)
  simp only [hv _ (coordOr_lt dZ z _ hz) _ (coordOr_lt dY y _ hy) _ (coordOr_lt dX x _ hx)]

/-- **C202** Exchanging the first two axes exchanges them in the result. -/
theorem median3d_swap_zy (r dZ dY dX : Nat) (dif : K) (vol vol' res res' : Nat → Nat → Nat → K)
    (hv : ∀ z < dZ, ∀ y < dY, ∀ x < dX, vol' y z x = vol z y x)
    (h : Filtered3 r dZ dY dX dif vol res) (h' : Filtered3 r dY dZ dX dif vol' res') :
    ∀ z < dZ, ∀ y < dY, ∀ x < dX, res' y z x = res z y x := by
  intro z hz y hy x hx
  refine pixel_eq h h' hz hy hx hy hz hx ?_ (hv z hz y hy x hx)
  unfold window3
  refine List.Perm.flatMap_left _ fun a _ => ?_
  simp only [List.map_eq_flatMap]
  refine List.Perm.trans (List.Perm.of_eq ?_) (perm_flatMap_comm _ _ _)
  simp only [hv _ (coordOr_lt dZ z _ hz) _ (coordOr_lt dY y _ hy) _ (coordOr_lt dX x _ hx)]

theorem coordOr_near (r dim i : Nat) (d : Int) (hd : d ∈ offsets r) :
    i ≤ coordOr dim i d + r ∧ coordOr dim i d ≤ i + r := by
  unfold offsets at hd
  obtain ⟨a, ha, rfl⟩ := List.mem_map.1 hd
  have := List.mem_range.1 ha
  unfold coordOr
  split <;> omega

/-- **C202** The filters invent no values: every voxel of the result is a voxel of the data at most `r` away along each
axis. -/
theorem median3d_values (r dZ dY dX : Nat) (dif : K) (vol res : Nat → Nat → Nat → K)
    (h : Filtered3 r dZ dY dX dif vol res) : ∀ z < dZ, ∀ y < dY, ∀ x < dX,
      ∃ z' < dZ, ∃ y' < dY, ∃ x' < dX, res z y x = vol z' y' x' ∧ (z ≤ z' + r ∧ z' ≤ z + r) ∧
        (y ≤ y' + r ∧ y' ≤ y + r) ∧ (x ≤ x' + r ∧ x' ≤ x + r) := by
  intro z hz y hy x hx
  obtain ⟨m, a1, a2⟩ := filtered3_pixel h hz hy hx
  rw [a2]
  split
  · have hm := a1.mem
    unfold window3 at hm
    obtain ⟨a, ha, hm⟩ := List.mem_flatMap.1 hm
    obtain ⟨b, hb, hm⟩ := List.mem_flatMap.1 hm
    obtain ⟨c, hc, hm⟩ := List.mem_map.1 hm
    exact ⟨_, coordOr_lt dZ z c hz, _, coordOr_lt dY y b hy, _, coordOr_lt dX x a hx, hm.symm,
      coordOr_near r dZ z c hc, coordOr_near r dY y b hb, coordOr_near r dX x a ha⟩
  · exact ⟨z, hz, y, hy, x, hx, rfl, by omega, by omega, by omega⟩

/-! ### other units -/

theorem window3_map (r dZ dY dX : Nat) (vol vol' : Nat → Nat → Nat → K) (f : K → K)
    (hv : ∀ z < dZ, ∀ y < dY, ∀ x < dX, vol' z y x = f (vol z y x))
    {z y x : Nat} (hz : z < dZ) (hy : y < dY) (hx : x < dX) :
    window3 r dZ dY dX vol' z y x = (window3 r dZ dY dX vol z y x).map f := by
  unfold window3
  simp only [List.map_flatMap, List.map_map, Function.comp_def,
    hv _ (coordOr_lt dZ z _ hz) _ (coordOr_lt dY y _ hy) _ (coordOr_lt dX x _ hx)]

theorem isRank_mono {l : List K} {k : Nat} {v : K} {f : K → K} (hf : StrictMono f) (h : IsRank l k v) :
    IsRank (l.map f) k (f v) := by
  unfold IsRank at *
  simpa only [List.countP_map, Function.comp_def, hf.lt_iff_lt, hf.le_iff_le] using h

theorem isRank_anti {l : List K} {k : Nat} {v : K} {f : K → K} (hf : StrictAnti f) (hl : l.length = 2 * k + 1)
    (h : IsRank l k v) : IsRank (l.map f) k (f v) := by
  unfold IsRank at *
  simp only [List.countP_map, Function.comp_def, hf.lt_iff_gt, hf.le_iff_ge]
  have e1 := List.length_eq_countP_add_countP (fun x => decide (x < v)) (l := l)
  have e2 := List.length_eq_countP_add_countP (fun x => decide (x ≤ v)) (l := l)
  simp only [decide_eq_true_eq, not_lt, not_le] at e1 e2
  omega

theorem length_window3 (r dZ dY dX : Nat) (vol : Nat → Nat → Nat → K) (z y x : Nat) :
    (window3 r dZ dY dX vol z y x).length = (2 * r + 1) ^ 3 := by
  unfold window3 offsets
  simp only [List.length_flatMap, List.length_map, List.length_range, List.map_const', List.sum_replicate, smul_eq_mul]
  ring

theorem odd_cube (r : Nat) : (2 * r + 1) ^ 3 = 2 * ((2 * r + 1) ^ 3 / 2) + 1 := by
  have : (2 * r + 1) ^ 3 = 2 * (4 * r ^ 3 + 6 * r ^ 2 + 3 * r) + 1 := by ring
  omega

/-- **C202** `median_filter3d` commutes with every strictly monotone change of the values, increasing or decreasing. -/
theorem median3d_monotone (r dZ dY dX : Nat) (f : K → K) (hf : StrictMono f ∨ StrictAnti f)
    (vol vol' res res' : Nat → Nat → Nat → K)
    (hv : ∀ z < dZ, ∀ y < dY, ∀ x < dX, vol' z y x = f (vol z y x))
    (h : Filtered3 r dZ dY dX 0 vol res) (h' : Filtered3 r dZ dY dX 0 vol' res') :
    ∀ z < dZ, ∀ y < dY, ∀ x < dX, res' z y x = f (res z y x) := by
  intro z hz y hy x hx
  obtain ⟨a, a1, a2⟩ := filtered3_pixel h hz hy hx
  obtain ⟨b, b1, b2⟩ := filtered3_pixel h' hz hy hx
  rw [if_pos (abs_nonneg _)] at a2 b2
  rw [a2, b2]
  rw [window3_map r dZ dY dX vol vol' f hv hz hy hx] at b1
  rcases hf with hf | hf
  · exact b1.unique (isRank_mono hf a1)
  · exact b1.unique (isRank_anti hf (by rw [length_window3]; exact odd_cube r) a1)

/-- **C202** `remove_outlier3d` commutes with every change of unit and offset, also with negation: bright and dark spots
are treated alike. -/
theorem outlier3d_affine (r dZ dY dX : Nat) (dif a b : K) (ha : a ≠ 0) (vol vol' res res' : Nat → Nat → Nat → K)
    (hv : ∀ z < dZ, ∀ y < dY, ∀ x < dX, vol' z y x = a * vol z y x + b)
    (h : Filtered3 r dZ dY dX dif vol res) (h' : Filtered3 r dZ dY dX (|a| * dif) vol' res') :
    ∀ z < dZ, ∀ y < dY, ∀ x < dX, res' z y x = a * res z y x + b := by
  intro z hz y hy x hx
  obtain ⟨m, a1, a2⟩ := filtered3_pixel h hz hy hx
  obtain ⟨m', b1, b2⟩ := filtered3_pixel h' hz hy hx
  rw [window3_map r dZ dY dX vol vol' (fun t => a * t + b) hv hz hy hx] at b1
  have hm : m' = a * m + b := by
    rcases lt_or_gt_of_ne ha with hn | hp
    · refine b1.unique (isRank_anti (f := fun t => a * t + b) ?_ (by rw [length_window3]; exact odd_cube r) a1)
      intro s t hst
      have := mul_lt_mul_of_neg_left hst hn
      dsimp only
      linarith
    · refine b1.unique (isRank_mono (f := fun t => a * t + b) ?_ a1)
      intro s t hst
      have := mul_lt_mul_of_pos_left hst hp
      dsimp only
      linarith
  rw [a2, b2, hv z hz y hy x hx, hm, show a * vol z y x + b - (a * m + b) = a * (vol z y x - m) by ring, abs_mul]
  have hpos : 0 < |a| := abs_pos.2 ha
  by_cases hc : dif ≤ |vol z y x - m|
  · rw [if_pos hc, if_pos (mul_le_mul_of_nonneg_left hc hpos.le)]
  · rw [if_neg hc, if_neg (not_le.2 (mul_lt_mul_of_pos_left (not_le.1 hc) hpos))]

end

example : ∃ res res', Filtered3 (K := ℚ) 1 3 4 5 (1 / 2) (fun z y x => z + 2 * y + x * x) res ∧
    Filtered3 (K := ℚ) 1 3 5 4 (1 / 2) (fun z x y => z + 2 * y + x * x) res' ∧ res' 0 2 1 = res 0 1 2 := by
  obtain ⟨res, h⟩ := filtered3_exists (K := ℚ) 1 3 4 5 (1 / 2) (fun z y x => z + 2 * y + x * x) (by omega) (by omega)
  obtain ⟨res', h'⟩ := filtered3_exists (K := ℚ) 1 3 5 4 (1 / 2) (fun z x y => z + 2 * y + x * x) (by omega) (by omega)
  exact ⟨res, res', h, h', median3d_swap_yx 1 3 4 5 (1 / 2) _ _ res res'
    (fun _ _ _ _ _ _ => rfl) h h' 0 (by omega) 1 (by omega) 2 (by omega)⟩

example : StrictAnti fun t : ℚ => 65535 - t := fun s t h => by dsimp only; linarith

example : ∃ res res', Filtered3 (K := ℚ) 1 3 4 5 (1 / 2) (fun z y x => z + 2 * y + x * x) res ∧
    Filtered3 (K := ℚ) 1 3 4 5 (|(-2 : ℚ)| * (1 / 2)) (fun z y x => -2 * (z + 2 * y + x * x) + 7) res' ∧
    res' 0 1 2 = -2 * res 0 1 2 + 7 := by
  obtain ⟨res, h⟩ := filtered3_exists (K := ℚ) 1 3 4 5 (1 / 2) (fun z y x => z + 2 * y + x * x) (by omega) (by omega)
  obtain ⟨res', h'⟩ := filtered3_exists (K := ℚ) 1 3 4 5 (|(-2 : ℚ)| * (1 / 2))
    (fun z y x => -2 * (z + 2 * y + x * x) + 7) (by omega) (by omega)
  exact ⟨res, res', h, h', outlier3d_affine 1 3 4 5 (1 / 2) (-2) 7 (by norm_num) _ _ res res'
    (fun _ _ _ _ _ _ => rfl) h h' 0 (by omega) 1 (by omega) 2 (by omega)⟩

end Tomopy.Sym
