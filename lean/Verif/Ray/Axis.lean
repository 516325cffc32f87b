import Verif.Ray.Turn

/-!
# Rays along the axes (C165)

At the angles 0 and `π/2` every ray runs through one column or one row of pixels.
-/

set_option linter.unusedSectionVars false

namespace Tomopy.Ray

open Real

section Generic

variable {K : Type*} [Field K] [LinearOrder K] [IsStrictOrderedRing K] [FloorRing K]

theorem pixelIndex_unit {r n : Nat} : pixelIndex r (grid r n) (grid r (n + 1) : K) = n := by
  rw [pixelIndex_eq, Int.floor_eq_iff]
  simp only [grid]
  push_cast
  constructor <;> linarith

theorem hyp_unit {hyp : K → K → K} (hh : IsHyp hyp) : hyp 1 0 = 1 ∧ hyp 0 1 = 1 := by
  constructor
  · have h := hh 1 0
    have h1 : hyp 1 0 * hyp 1 0 = 1 * 1 := by rw [h.2]; ring
    exact (mul_self_inj h.1 zero_le_one).1 h1
  · have h := hh 0 1
    have h1 : hyp 0 1 * hyp 0 1 = 1 * 1 := by rw [h.2]; ring
    exact (mul_self_inj h.1 zero_le_one).1 h1

open Classical in
theorem bList_axis {rx rz : Nat} {yi : K} (hr : 0 < rx + rz) :
    bList rx rz yi 0 1 = if Margin rz yi then (List.range (rx + 1)).map fun n => (grid rx n, yi) else [] := by
  have key : ∀ n, bPoint rx rz (coordy rx (rayX rx rz) yi 0 1) n =
      if Margin rz yi then some (grid rx n, yi) else none := by
    intro n
    refine Option.ext fun P => ?_
    rw [bPoint_iff hr]
    simp only [OnRay, mul_one, mul_zero, sub_zero, zero_add]
    constructor
    · rintro ⟨h1, -, h2, h3⟩
      rw [h1] at h2
      rw [if_pos h2, Option.some.injEq]
      exact Prod.ext h3.symm h1.symm
    · intro h
      split_ifs at h with hm
      rw [Option.some.injEq] at h
      subst h
      exact ⟨rfl, one_ne_zero, hm, rfl⟩
  unfold bList
  rw [funext key]
  by_cases hm : Margin rz yi
  · simp only [if_pos hm]
    rw [List.filterMap_eq_map']
  · simp only [if_neg hm]
    exact filterMap_nil_of (fun _ => rfl) _

open Classical in
theorem aList_axis {rx rz : Nat} {yi : K} (hr : 0 < rx + rz) :
    aList rx rz yi 1 0 = if Margin rx (-yi) then (List.range (rz + 1)).map fun n => (-yi, grid rz n) else [] := by
  have key : ∀ n, aPoint rx rz (coordx rz (rayX rx rz) yi 1 0) n =
      if Margin rx (-yi) then some (-yi, grid rz n) else none := by
    intro n
    refine Option.ext fun P => ?_
    rw [aPoint_iff hr]
    simp only [OnRay, mul_one, mul_zero, zero_sub, add_zero]
    constructor
    · rintro ⟨h1, -, h2, h3⟩
      have h1' : P.1 = -yi := by linarith
      rw [h1'] at h2
      rw [if_pos h2, Option.some.injEq]
      exact Prod.ext h1'.symm h3.symm
    · intro h
      split_ifs at h with hm
      rw [Option.some.injEq] at h
      subst h
      exact ⟨by simp, one_ne_zero, hm, rfl⟩
  unfold aList
  rw [funext key]
  by_cases hm : Margin rx (-yi)
  · simp only [if_pos hm]
    rw [List.filterMap_eq_map']
  · simp only [if_neg hm]
    exact filterMap_nil_of (fun _ => rfl) _

theorem calcDist_row {hyp : K → K → K} (hh : IsHyp hyp) (rx rz : Nat) (y : K) :
    ∀ k a, calcDist hyp rx rz ((List.range' a (k + 1)).map fun n => (grid rx n, y)) =
      (List.range' a k).map fun n : Nat => (pixelIndex rz y y + (n : Int) * (rz : Int), (1 : K)) := by
  intro k
  induction k with
  | zero => intro a; simp [calcDist]
  | succ k ih =>
    intro a
    have e : List.range' a (k + 1 + 1) = a :: List.range' (a + 1) (k + 1) := List.range'_succ
    have e2 : List.range' a (k + 1) = a :: List.range' (a + 1) k := List.range'_succ
    have e3 : List.range' (a + 1) (k + 1) = (a + 1) :: List.range' (a + 1 + 1) k := List.range'_succ
    have := ih (a + 1)
    rw [e, e2, List.map_cons, List.map_cons, ← this, e3, List.map_cons, calcDist]
    dsimp only
    rw [pixelIndex_unit, sub_self, show grid rx (a + 1) - grid rx a = (1 : K) by
      simp only [grid]; push_cast; ring, (hyp_unit hh).1]

theorem calcDist_column {hyp : K → K → K} (hh : IsHyp hyp) (rx rz : Nat) (x : K) :
    ∀ k a, calcDist hyp rx rz ((List.range' a (k + 1)).map fun n => (x, grid rz n)) =
      (List.range' a k).map fun n : Nat => ((n : Int) + pixelIndex rx x x * (rz : Int), (1 : K)) := by
  intro k
  induction k with
  | zero => intro a; simp [calcDist]
  | succ k ih =>
    intro a
    have e : List.range' a (k + 1 + 1) = a :: List.range' (a + 1) (k + 1) := List.range'_succ
    have e2 : List.range' a (k + 1) = a :: List.range' (a + 1) k := List.range'_succ
    have e3 : List.range' (a + 1) (k + 1) = (a + 1) :: List.range' (a + 1 + 1) k := List.range'_succ
    have := ih (a + 1)
    rw [e, e2, List.map_cons, List.map_cons, ← this, e3, List.map_cons, calcDist]
    dsimp only
    rw [pixelIndex_unit, sub_self, show grid rz (a + 1) - grid rz a = (1 : K) by
      simp only [grid]; push_cast; ring, (hyp_unit hh).2]

open Classical in
/-- The segments of a ray at angle 0: one of length 1 in every pixel `(ix, iy)` of one line of pixels. -/
theorem trace_axis0 {hyp : K → K → K} (hh : IsHyp hyp) (q : Int) (rx rz : Nat) (hr : 0 < rx + rz) (yi : K) :
    trace hyp (capsRecon rx rz) q rx rz yi 0 1 = some (if Margin rz yi then
      (List.range rx).map fun n : Nat => (⌊yi + (rz : K) / 2⌋ + (n : Int) * (rz : Int), (1 : K)) else []) := by
  have hle := crossings_le rx rz yi 0 1
  rw [trace_eq, if_pos (by simp only [capsRecon]; omega), aList_nil_of_sn rfl, bList_axis hr]
  congr 1
  have e : sortIntersections q ([] : List (K × K)) = fun bs => bs := by
    funext bs
    unfold sortIntersections
    simp [mergeX]
  rw [e]
  by_cases hm : Margin rz yi
  · rw [if_pos hm, if_pos hm]
    have := calcDist_row hh rx rz yi rx 0
    rw [← List.range_eq_range', ← List.range_eq_range', pixelIndex_eq] at this
    rw [this, show (yi + yi) / 2 = yi by ring]
  · rw [if_neg hm, if_neg hm]
    rfl

open Classical in
/-- The segments of a ray at angle `π/2`, up to the order. -/
theorem trace_axis1 {hyp : K → K → K} (hh : IsHyp hyp) (q : Int) (rx rz : Nat) (hr : 0 < rx + rz) (yi : K) :
    ∃ segs, trace hyp (capsRecon rx rz) q rx rz yi 1 0 = some segs ∧ segs.Perm (if Margin rx (-yi) then
      (List.range rz).map fun n : Nat => ((n : Int) + ⌊-yi + (rx : K) / 2⌋ * (rz : Int), (1 : K)) else []) := by
  have hle := crossings_le rx rz yi 1 0
  rw [trace_eq, if_pos (by simp only [capsRecon]; omega), bList_nil_of_cs rfl]
  refine ⟨_, rfl, ?_⟩
  have hp : (calcDist hyp rx rz (sortIntersections q (aList rx rz yi 1 0) [])).Perm
      (calcDist hyp rx rz (aList rx rz yi 1 0)) := by
    unfold sortIntersections
    simp only [mergeX_nil_right]
    split
    · rw [calcDist_reverse hh]
      exact List.reverse_perm _
    · exact List.Perm.refl _
  refine hp.trans ?_
  rw [aList_axis hr]
  by_cases hm : Margin rx (-yi)
  · rw [if_pos hm, if_pos hm]
    have := calcDist_column hh rx rz (-yi) rz 0
    rw [← List.range_eq_range', ← List.range_eq_range', pixelIndex_eq] at this
    rw [this, show (-yi + -yi) / 2 = -yi by ring]
  · rw [if_neg hm, if_neg hm]
    exact List.Perm.refl _

end Generic

theorem clear_axis (k : Int) : ClearOfAxes (k * (π / 2)) := by
  intro j
  by_cases h : j = k
  · left; rw [h]
  · right
    have e : (k : ℝ) * (π / 2) - j * (π / 2) = ((k - j : Int) : ℝ) * (π / 2) := by push_cast; ring
    rw [e, abs_mul, abs_of_pos (show 0 < π / 2 by positivity)]
    have h1 : (1 : ℝ) ≤ |((k - j : Int) : ℝ)| := by
      rw [← Int.cast_abs]; exact_mod_cast Int.one_le_abs (by omega)
    have hpi : (1 : ℝ) / ipiC ≤ π / 2 := by
      have : (1 : ℝ) / ipiC ≤ 1 := by
        rw [div_le_one ipiC_pos]; norm_num [ipiC]
      have := Real.pi_gt_three
      linarith
    nlinarith [Real.pi_gt_three]

theorem clear_zero : ClearOfAxes 0 := by
  have := clear_axis 0
  simpa using this

theorem clear_half : ClearOfAxes (π / 2) := by
  have := clear_axis 1
  simpa using this

/-- The offset of the rays for the default rotation centre. -/
theorem rayY_default (dx d : Nat) : rayY dx d (mov dx ((dx : ℝ) / 2)) = (d : ℝ) + 1 / 2 - (dx : ℝ) / 2 := by
  unfold rayY mov
  have e : ((dx : ℝ) - 1) * (1 / 2) - (dx : ℝ) / 2 = -1 / 2 := by ring
  have hf : ⌊(-1 / 2 : ℝ)⌋ = -1 := by rw [Int.floor_eq_iff]; norm_num
  rw [e, hf]
  norm_num
  ring

end Tomopy.Ray
