import Verif.Morph.Sample
import Verif.Morph.Props

/-! Down-sampling for every length: the exact result, and exactly when bins are aligned (C118), and exactly
which overlaps of a 360 degree scan are stitched correctly (C119). -/
set_option linter.unusedSectionVars false

namespace Tomopy.Morph

variable {K : Type} [Field K]

/-- Specification: along axis 1 every output element is the mean of its own bin. -/
def Aligned1 (dx dy dz b : Nat) (data o : Nat → K) : Prop :=
  ∀ i < dx, ∀ j < dy / b, ∀ k < dz, o (flat (dy / b) dz i j k) =
    (∑ p ∈ Finset.range b, data (flat dy dz i (j * b + p) k)) / (b : K)

/-- Specification: along axis 2 every output element is the mean of its own bin. -/
def Aligned2 (dx dy dz b : Nat) (data o : Nat → K) : Prop :=
  ∀ i < dx, ∀ j < dy, ∀ k < dz / b, o (flat dy (dz / b) i j k) =
    (∑ p ∈ Finset.range b, data (flat dy dz i j (k * b + p))) / (b : K)

/-- Axis 1, every length: the bin of row `j` in plane `i` starts `i * (dy % 2^level)` rows too
early. -/
theorem downsample_axis1_exact (dx dy dz level : Nat) (data : Nat → K) :
    ∃ o, downsample dx dy dz level 1 data = .ok (some ⟨(dx, dy / 2 ^ level, dz), o⟩) ∧
      ∀ i < dx, ∀ j < dy / 2 ^ level, ∀ k < dz, o (flat (dy / 2 ^ level) dz i j k) =
        (∑ p ∈ Finset.range (2 ^ level),
          data ((i * dy + (j * 2 ^ level + p) - i * (dy % 2 ^ level)) * dz + k))
          / ((2 ^ level : Nat) : K) := by
  have e := visits1 dx (dy / 2 ^ level) dz (2 ^ level)
  rw [show dx * (dy / 2 ^ level * (2 ^ level * dz))
    = dx * (dy / 2 ^ level) * (2 ^ level * dz) by ring] at e
  obtain ⟨o, ho, hv⟩ := down_core (dx * dy * dz) (dx * (dy / 2 ^ level) * dz) (2 ^ level) dz
    (dx * (dy / 2 ^ level)) data (by
      calc dx * (dy / 2 ^ level) * (2 ^ level * dz)
          = dx * (dy / 2 ^ level * 2 ^ level) * dz := by ring
        _ ≤ dx * dy * dz :=
          Nat.mul_le_mul_right _ (Nat.mul_le_mul_left _ (Nat.div_mul_le_self _ _)))
    (le_refl _)
  refine ⟨o, ?_, ?_⟩
  · unfold downsample
    simp only [shapeAxis, cAxis, newShape, axisLen, downVisits, bind, Except.bind, pure,
      Except.pure, show (0 : Int) ≤ 1 ∧ (1 : Int) ≤ 2 by decide, if_true, Int.toNat_one, and_self]
    rw [e, ho]
    rfl
  · intro i hi j hj k hk
    have hl : i * (dy / 2 ^ level) + j < dx * (dy / 2 ^ level) :=
      inner_lt dx (dy / 2 ^ level) i j hi hj
    unfold flat
    rw [hv _ hl k hk]
    congr 1
    refine Finset.sum_congr rfl fun p _ => ?_
    congr 3
    have hd := Nat.div_add_mod dy (2 ^ level)
    have h1 : i * dy = i * (2 ^ level * (dy / 2 ^ level)) + i * (dy % 2 ^ level) := by
      rw [← Nat.mul_add, hd]
    have h2 : (i * (dy / 2 ^ level) + j) * 2 ^ level + p
        = i * (2 ^ level * (dy / 2 ^ level)) + (j * 2 ^ level + p) := by ring
    omega

/-- Axis 2, every length: the bins of line `i * dy + j` start that many times `dz % 2^level`
elements too early. -/
theorem downsample_axis2_exact (dx dy dz level : Nat) (data : Nat → K) :
    ∃ o, downsample dx dy dz level 2 data = .ok (some ⟨(dx, dy, dz / 2 ^ level), o⟩) ∧
      ∀ i < dx, ∀ j < dy, ∀ k < dz / 2 ^ level, o (flat dy (dz / 2 ^ level) i j k) =
        (∑ p ∈ Finset.range (2 ^ level),
          data ((i * dy + j) * dz + (k * 2 ^ level + p) - (i * dy + j) * (dz % 2 ^ level)))
          / ((2 ^ level : Nat) : K) := by
  have e := visits2 dx dy (dz / 2 ^ level) (2 ^ level)
  rw [show dx * (dy * (dz / 2 ^ level * 2 ^ level))
    = dx * dy * (dz / 2 ^ level) * (2 ^ level * 1) by ring] at e
  obtain ⟨o, ho, hv⟩ := down_core (dx * dy * dz) (dx * dy * (dz / 2 ^ level)) (2 ^ level) 1
    (dx * dy * (dz / 2 ^ level)) data (by
      calc dx * dy * (dz / 2 ^ level) * (2 ^ level * 1)
          = dx * dy * (dz / 2 ^ level * 2 ^ level) := by ring
        _ ≤ dx * dy * dz := Nat.mul_le_mul_left _ (Nat.div_mul_le_self _ _)) (by omega)
  refine ⟨o, ?_, ?_⟩
  · unfold downsample
    simp only [shapeAxis, cAxis, newShape, axisLen, downVisits, bind, Except.bind, pure,
      Except.pure, show (0 : Int) ≤ 2 ∧ (2 : Int) ≤ 2 by decide, if_true, and_self,
      show (2 : Int).toNat = 2 from rfl]
    rw [e, ho]
    rfl
  · intro i hi j hj k hk
    have h1 := inner_lt dx dy i j hi hj
    have hl := inner_lt (dx * dy) (dz / 2 ^ level) (i * dy + j) k h1 hk
    have := hv _ hl 0 (by omega)
    simp only [Nat.mul_one, Nat.add_zero] at this
    unfold flat
    rw [this]
    congr 1
    refine Finset.sum_congr rfl fun p _ => ?_
    congr 1
    generalize i * dy + j = m
    have hd := Nat.div_add_mod dz (2 ^ level)
    have h1 : m * dz = m * (2 ^ level * (dz / 2 ^ level)) + m * (dz % 2 ^ level) := by
      rw [← Nat.mul_add, hd]
    have h2 : (m * (dz / 2 ^ level) + k) * 2 ^ level + p
        = m * (2 ^ level * (dz / 2 ^ level)) + (k * 2 ^ level + p) := by ring
    omega

theorem ok_unique {r : Except PyErr (Option (Sampled K))} {s t : Nat × Nat × Nat} {o o' : Nat → K}
    (h : r = .ok (some ⟨s, o⟩)) (h' : r = .ok (some ⟨t, o'⟩)) : o = o' := by
  rw [h] at h'
  simp only [Except.ok.injEq, Option.some.injEq, Sampled.mk.injEq] at h'
  exact h'.2

section CharZero
variable [CharZero K]

/-- A bin that starts at `q0` and one that starts behind it, for the array that is one at `q0`
only. -/
theorem bins_differ (b q0 : Nat) (f g : Nat → Nat) (hb : 0 < b) (hf : f 0 = q0)
    (hf' : ∀ p < b, f p = q0 → p = 0) (hg : ∀ p < b, g p ≠ q0) :
    (∑ p ∈ Finset.range b, (fun q => if q = q0 then (1 : K) else 0) (f p)) / (b : K) ≠
      (∑ p ∈ Finset.range b, (fun q => if q = q0 then (1 : K) else 0) (g p)) / (b : K) := by
  have h0 : (b : K) ≠ 0 := by exact_mod_cast hb.ne'
  have e1 : ∑ p ∈ Finset.range b, (fun q => if q = q0 then (1 : K) else 0) (f p) = 1 := by
    rw [Finset.sum_eq_single 0]
    · simp [hf]
    · intro p hp hne
      exact if_neg fun h => hne (hf' p (Finset.mem_range.1 hp) h)
    · intro h; exact absurd (Finset.mem_range.2 hb) h
  have e2 : ∑ p ∈ Finset.range b, (fun q => if q = q0 then (1 : K) else 0) (g p) = 0 :=
    Finset.sum_eq_zero fun p hp => if_neg (hg p (Finset.mem_range.1 hp))
  rw [e1, e2, zero_div]
  exact one_div_ne_zero h0

/-- Bins along axis 1 are aligned for all data exactly if the bin divides the length, or there is
nothing to align. -/
theorem downsample_axis1_aligned_iff (dx dy dz level : Nat) :
    (∀ data : Nat → K, ∃ o, downsample dx dy dz level 1 data
        = .ok (some ⟨(dx, dy / 2 ^ level, dz), o⟩) ∧ Aligned1 dx dy dz (2 ^ level) data o) ↔
      2 ^ level ∣ dy ∨ dy < 2 ^ level ∨ dx ≤ 1 ∨ dz = 0 := by
  have hb : 0 < 2 ^ level := by positivity
  constructor
  · intro h
    by_contra hc
    simp only [not_or, not_le, not_lt] at hc
    obtain ⟨h1, h2, h3, h4⟩ := hc
    have hr : dy % 2 ^ level ≠ 0 := fun e => h1 (Nat.dvd_of_mod_eq_zero e)
    have hL : 0 < dy / 2 ^ level := Nat.div_pos h2 hb
    have hz : 0 < dz := by omega
    have hle := Nat.mod_le dy (2 ^ level)
    obtain ⟨o, ho, ha⟩ := h fun q => if q = (dy - dy % 2 ^ level) * dz then 1 else 0
    obtain ⟨o', ho', he⟩ := downsample_axis1_exact (K := K) dx dy dz level
      fun q => if q = (dy - dy % 2 ^ level) * dz then 1 else 0
    obtain rfl := ok_unique ho ho'
    have h5 := ha 1 h3 0 hL 0 hz
    rw [he 1 h3 0 hL 0 hz] at h5
    refine bins_differ (K := K) (2 ^ level) ((dy - dy % 2 ^ level) * dz)
      (fun p => (1 * dy + (0 * 2 ^ level + p) - 1 * (dy % 2 ^ level)) * dz + 0)
      (fun p => flat dy dz 1 (0 * 2 ^ level + p) 0) hb ?_ ?_ ?_ h5
    · simp only [Nat.one_mul, Nat.zero_mul, Nat.add_zero]
    · intro p _ hp
      simp only [Nat.one_mul, Nat.zero_mul, Nat.zero_add, Nat.add_zero] at hp
      have := Nat.eq_of_mul_eq_mul_right hz hp
      omega
    · intro p _ hp
      simp only [flat, Nat.one_mul, Nat.zero_mul, Nat.zero_add, Nat.add_zero] at hp
      have := Nat.eq_of_mul_eq_mul_right hz hp
      omega
  · intro h data
    obtain ⟨o, ho, he⟩ := downsample_axis1_exact dx dy dz level data
    refine ⟨o, ho, fun i hi j hj k hk => ?_⟩
    rw [he i hi j hj k hk]
    have : i * (dy % 2 ^ level) = 0 := by
      rcases h with h | h | h | h
      · rw [Nat.mod_eq_zero_of_dvd h, Nat.mul_zero]
      · rw [Nat.div_eq_of_lt h] at hj; omega
      · rw [show i = 0 by omega, Nat.zero_mul]
      · omega
    rw [this]
    rfl

/-- Bins along axis 2 are aligned for all data exactly if the bin divides the length, or there is
nothing to align. -/
theorem downsample_axis2_aligned_iff (dx dy dz level : Nat) :
    (∀ data : Nat → K, ∃ o, downsample dx dy dz level 2 data
        = .ok (some ⟨(dx, dy, dz / 2 ^ level), o⟩) ∧ Aligned2 dx dy dz (2 ^ level) data o) ↔
      2 ^ level ∣ dz ∨ dz < 2 ^ level ∨ dx * dy ≤ 1 := by
  have hb : 0 < 2 ^ level := by positivity
  constructor
  · intro h
    by_contra hc
    simp only [not_or, not_le, not_lt] at hc
    obtain ⟨h1, h2, h3⟩ := hc
    have hr : dz % 2 ^ level ≠ 0 := fun e => h1 (Nat.dvd_of_mod_eq_zero e)
    have hL : 0 < dz / 2 ^ level := Nat.div_pos h2 hb
    have hle := Nat.mod_le dz (2 ^ level)
    obtain ⟨i, j, hi, hj, hij⟩ : ∃ i j, i < dx ∧ j < dy ∧ i * dy + j = 1 := by
      rcases Nat.lt_or_ge 1 dy with hy | hy
      · exact ⟨0, 1, by rcases Nat.eq_zero_or_pos dx with e | e <;> [(subst e; omega); exact e],
          hy, by omega⟩
      · have hy1 : dy = 1 := by
          rcases Nat.eq_zero_or_pos dy with e | e
          · subst e; omega
          · omega
        subst hy1
        exact ⟨1, 0, by omega, by omega, by omega⟩
    obtain ⟨o, ho, ha⟩ := h fun q => if q = dz - dz % 2 ^ level then 1 else 0
    obtain ⟨o', ho', he⟩ := downsample_axis2_exact (K := K) dx dy dz level
      fun q => if q = dz - dz % 2 ^ level then 1 else 0
    obtain rfl := ok_unique ho ho'
    have h5 := ha i hi j hj 0 hL
    rw [he i hi j hj 0 hL] at h5
    refine bins_differ (K := K) (2 ^ level) (dz - dz % 2 ^ level)
      (fun p => (i * dy + j) * dz + (0 * 2 ^ level + p) - (i * dy + j) * (dz % 2 ^ level))
      (fun p => flat dy dz i j (0 * 2 ^ level + p)) hb ?_ ?_ ?_ h5
    · simp only [hij]; omega
    · intro p _ hp
      simp only [hij] at hp; omega
    · intro p _ hp
      simp only [flat, hij] at hp; omega
  · intro h data
    obtain ⟨o, ho, he⟩ := downsample_axis2_exact dx dy dz level data
    refine ⟨o, ho, fun i hi j hj k hk => ?_⟩
    rw [he i hi j hj k hk]
    have : (i * dy + j) * (dz % 2 ^ level) = 0 := by
      rcases h with h | h | h
      · rw [Nat.mod_eq_zero_of_dvd h, Nat.mul_zero]
      · rw [Nat.div_eq_of_lt h] at hk; omega
      · have := inner_lt dx dy i j hi hj
        rw [show i * dy + j = 0 by omega, Nat.zero_mul]
    rw [this]
    rfl

/-- Both sides of the condition occur: 2 x 6 x 1 and 2 x 5 x 1, bins of two. -/
example : (∀ data : Nat → ℚ, ∃ o, downsample 2 6 1 1 1 data = .ok (some ⟨(2, 3, 1), o⟩) ∧
      Aligned1 2 6 1 2 data o) ∧
    ¬ ∀ data : Nat → ℚ, ∃ o, downsample 2 5 1 1 1 data = .ok (some ⟨(2, 2, 1), o⟩) ∧
      Aligned1 2 5 1 2 data o :=
  ⟨(downsample_axis1_aligned_iff (K := ℚ) 2 6 1 1).2 (by decide),
    fun h => absurd ((downsample_axis1_aligned_iff (K := ℚ) 2 5 1 1).1 h) (by decide)⟩

/-- The same along axis 2: 1 x 2 x 6 and 1 x 2 x 5. -/
example : (∀ data : Nat → ℚ, ∃ o, downsample 1 2 6 1 2 data = .ok (some ⟨(1, 2, 3), o⟩) ∧
      Aligned2 1 2 6 2 data o) ∧
    ¬ ∀ data : Nat → ℚ, ∃ o, downsample 1 2 5 1 2 data = .ok (some ⟨(1, 2, 2), o⟩) ∧
      Aligned2 1 2 5 2 data o :=
  ⟨(downsample_axis2_aligned_iff (K := ℚ) 1 2 6 1).2 (by decide),
    fun h => absurd ((downsample_axis2_aligned_iff (K := ℚ) 1 2 5 1).1 h) (by decide)⟩

end CharZero

/-! ### Stitching (C119) -/

section Stitch
variable {K : Type} [Field K] [LinearOrder K] [IsStrictOrderedRing K]

/-- Specification: the row is complete, `2*dz-overlap` long; from `dz-overlap` on for `overlap`
pixels it is a convex combination of `first j` and `second j`; before and behind, copies of `head`
and `tail`. -/
def Stitched (rotation : String) (ov : Nat) (a b : List K) (head tail : Nat → Option K)
    (first second : Nat → K) : Prop :=
  ∃ out : List K, stitchRow rotation ov a b = .ok (out.map some) ∧
    out.length = 2 * a.length - ov ∧
    (∀ x, x < a.length - ov → out[x]? = head x) ∧
    (∀ x, x < a.length - ov → out[a.length + x]? = tail x) ∧
    ∀ j, j < ov → ∃ w : K, 0 ≤ w ∧ w ≤ 1 ∧
      out[a.length - ov + j]? = some (w * first j + (1 - w) * second j)

/-- Specification for rotation 'left': mirrored end of the second half, then the first half. -/
def StitchedLeft (ov : Nat) (a b : List K) : Prop :=
  Stitched "left" ov a b (fun x => b[a.length - 1 - x]?) (fun x => a[ov + x]?)
    (fun j => a.getD j 0) (fun j => b.getD (ov - 1 - j) 0)

/-- Specification for rotation 'right': first half, then the mirrored beginning of the second. -/
def StitchedRight (ov : Nat) (a b : List K) : Prop :=
  Stitched "right" ov a b (fun x => a[x]?) (fun x => b[a.length - ov - 1 - x]?)
    (fun j => a.getD (a.length - ov + j) 0) (fun j => b.getD (a.length - 1 - j) 0)

theorem stitch_right_full (a b : List K) (h : 2 ≤ a.length) (hb : b.length = a.length) :
    stitchRow "right" a.length a b = .error .value := by
  have e1 : pySlice a none (some (-((a.length : Nat) : Int))) = [] := by
    rw [slice_take_neg a a.length (by omega) (le_refl _)]; simp
  have e2 : pySlice b none (some (-((a.length : Nat) : Int))) = [] := by
    rw [slice_take_neg b a.length (by omega) (by omega)]; simp [hb]
  unfold stitchRow
  rw [e1, e2]
  simp only [show ¬ ("right" = "left") by decide, if_false, if_true, bind, Except.bind,
    List.map_nil, List.reverse_nil]
  have h1 : pySetSlice (List.replicate (2 * a.length - a.length) (none : Option K)) none
      (some ((a.length : Int) - (a.length : Nat))) []
      = .ok (List.replicate (2 * a.length - a.length) none) := by
    unfold pySetSlice
    rw [if_pos]
    · simp [pyIdx, pyBound]
    · simp [pyIdx, pyBound]
  rw [h1]
  simp only [pySetSlice]
  rw [if_neg]
  simp only [List.length_nil, pyIdx, pyBound, List.length_replicate]
  split <;> omega

theorem not_stitched_of_value {rotation : String} {ov : Nat} {a b : List K}
    {head tail : Nat → Option K} {first second : Nat → K} {v : K}
    (h : 0 < ov) (hf : first 0 = 1) (hs : second 0 = 1) (hv : v ≠ 1)
    (ho : ∃ out : List K, stitchRow rotation ov a b = .ok (out.map some) ∧
      out[a.length - ov]? = some v) : ¬ Stitched rotation ov a b head tail first second := by
  rintro ⟨out, h1, _, _, _, h2⟩
  obtain ⟨out', h3, h4⟩ := ho
  rw [h1, Except.ok.injEq] at h3
  have : out = out' := List.map_injective_iff.2 (Option.some_injective K) h3
  subst this
  obtain ⟨w, _, _, h5⟩ := h2 0 h
  rw [Nat.add_zero, h4, hf, hs, Option.some.injEq] at h5
  exact hv (by rw [h5]; ring)

/-- **C119** Rotation 'left': among the overlaps `0..dz` exactly one pixel and the full width are
stitched wrongly. -/
theorem stitch_left_iff (dz ov : Nat) (hz : 2 ≤ dz) (ho : ov ≤ dz) :
    (∀ a b : List K, a.length = dz → b.length = dz → StitchedLeft ov a b) ↔ ov ≠ 1 ∧ ov ≠ dz := by
  constructor
  · intro h
    refine ⟨?_, ?_⟩
    · rintro rfl
      have h0 := h (List.replicate dz 1) (List.replicate dz 1) (by simp) (by simp)
      refine not_stitched_of_value (v := 0) Nat.one_pos ?_ ?_ (by simp) ?_ h0
      · simp [List.getD_eq_getElem?_getD, show 0 < dz by omega]
      · simp [List.getD_eq_getElem?_getD, show 0 < dz by omega]
      · exact (stitch_one_pixel (K := K) _ _ (by simpa using hz) (by simp)).1
    · rintro rfl
      obtain ⟨out, h1, _⟩ := h (List.replicate ov 1) (List.replicate ov 1) (by simp) (by simp)
      have := stitch_full_overlap (List.replicate ov (1 : K)) (List.replicate ov 1) (by simpa)
      rw [List.length_replicate] at this
      rw [this] at h1
      cases h1
  · rintro ⟨h1, h2⟩ a b rfl hb
    obtain ⟨out, e, hl, hh, ht, hm⟩ := stitch_left_partial ov a b hb (by omega) h1
    refine ⟨out, e, hl, hh, fun x hx => ?_, fun j hj => ?_⟩
    · rw [ht _ (by omega) (by omega)]
      congr 1
      omega
    · obtain ⟨w, h0, h1, _, h3⟩ := hm j hj
      exact ⟨w, h0, h1, h3⟩

/-- **C119** Rotation 'right': among the overlaps `0..dz` exactly zero (the default), one pixel and
the full width are stitched wrongly. -/
theorem stitch_right_iff (dz ov : Nat) (hz : 2 ≤ dz) (ho : ov ≤ dz) :
    (∀ a b : List K, a.length = dz → b.length = dz → StitchedRight ov a b) ↔
      ov ≠ 0 ∧ ov ≠ 1 ∧ ov ≠ dz := by
  constructor
  · intro h
    have h0 := h (List.replicate dz 1) (List.replicate dz 1) (by simp) (by simp)
    refine ⟨?_, ?_, ?_⟩
    · rintro rfl
      obtain ⟨out, h1, _⟩ := h0
      rw [stitch_right_zero _ _ (by simpa)] at h1
      cases h1
    · rintro rfl
      have h2 := (stitch_one_pixel (K := K) (List.replicate dz 1) (List.replicate dz 1)
        (by simpa using hz) (by simp)).2
      have g : (List.replicate dz (1 : K)).getD (dz - 1) 0 = 1 := by
        simp [List.getD_eq_getElem?_getD, show dz - 1 < dz by omega]
      refine not_stitched_of_value (v := 1 + 1) Nat.one_pos ?_ ?_ ?_ ?_ h0
      · simpa using g
      · simpa using g
      · norm_num
      · simp only [List.length_replicate, g] at h2 ⊢
        exact h2
    · rintro rfl
      obtain ⟨out, h1, _⟩ := h0
      have := stitch_right_full (List.replicate ov (1 : K)) (List.replicate ov 1) (by simpa)
        (by simp)
      rw [List.length_replicate] at this
      rw [this] at h1
      cases h1
  · rintro ⟨h0, h1, h2⟩ a b rfl hb
    obtain ⟨out, e, hl, hh, ht, hm⟩ := stitch_right_partial ov a b hb (by omega) (by omega)
    refine ⟨out, e, hl, hh, fun x hx => ?_, fun j hj => ?_⟩
    · rw [ht _ (by omega) (by omega)]
      congr 1
      omega
    · obtain ⟨w, h0, h1, _, h3⟩ := hm j hj
      exact ⟨w, h0, h1, h3⟩

/-- Both sides occur for rows of four pixels. -/
example : (∀ a b : List ℚ, a.length = 4 → b.length = 4 → StitchedRight 2 a b) ∧
    ¬ ∀ a b : List ℚ, a.length = 4 → b.length = 4 → StitchedRight 0 a b :=
  ⟨(stitch_right_iff 4 2 (by decide) (by decide)).2 (by decide),
    fun h => absurd ((stitch_right_iff 4 0 (by decide) (by decide)).1 h) (by decide)⟩

/-- The same for rotation 'left'. -/
example : (∀ a b : List ℚ, a.length = 4 → b.length = 4 → StitchedLeft 0 a b) ∧
    ¬ ∀ a b : List ℚ, a.length = 4 → b.length = 4 → StitchedLeft 1 a b :=
  ⟨(stitch_left_iff 4 0 (by decide) (by decide)).2 (by decide),
    fun h => absurd ((stitch_left_iff 4 1 (by decide) (by decide)).1 h) (by decide)⟩

end Stitch

end Tomopy.Morph
