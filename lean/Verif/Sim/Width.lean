import Verif.Sim.Turn

/-!
# Projections without padding (C188)

With `pad=False` the detector is as wide as the second axis of the object, whatever the third one.
-/

set_option linter.unusedSectionVars false

namespace Tomopy.Sim

open Tomopy.Iter Tomopy.Mproc Tomopy.Recon
open Real (pi)

/-! ## Specification -/

/-- Total of a slice. -/
def sliceTotal (ox oz : Nat) (u : Mem ℝ) : ℝ := ∑ iy ∈ Finset.range oz, ∑ i ∈ Finset.range ox, u (i * oz + iy)

/-! ## The detector -/

section Py

variable {cpu : Nat} {debug : Bool} {oy ox oz : Nat} {u : Nat → Mem ℝ} {theta : List ℝ} {so sc : Bool}
  {n k : Option Nat} {r : Arr3 ℝ} {p : Nat} {center : Option (List ℝ)} {emission sino : Bool}

/-- **C188, the shape.**  Without padding the last axis of the result has the length of the second axis of the
object. -/
theorem unpadded_shape (h : Project cpu debug oy ox oz u theta center emission .no sino so sc n k r) :
    (r.d0, r.d1, r.d2) = if sino then (oy, theta.length, ox) else (theta.length, oy, ox) := by
  obtain ⟨dx, sn, hw, hs, rfl⟩ := h
  obtain ⟨h0, h1, h2, _⟩ := projectSino_value
    (fun c p d e he => (tracerGeom_ok ox oz dx (fun _ => c) _ 0 p d e he).1) hs
  simp only [projectWidth, Except.ok.injEq] at hw
  subst hw
  cases sino <;> cases emission <;> simp [projectPost, swap01, h0, h1, h2]

/-- **C188.**  Another value of `pad` (1, 0, None, numpy.True_) gives no result. -/
theorem other_pad_fails : ¬ ∃ r, Project cpu debug oy ox oz u theta center emission .other sino so sc n k r := by
  rintro ⟨r, dx, _, hw, _⟩
  simp [projectWidth] at hw

/-- A ray is given by its distance to the rotation centre. -/
theorem rayIntegral_shift {dx dx' d d' : Nat} (e : dx + 2 * d' = dx' + 2 * d) (θ : List ℝ) (p : Nat) (v : Mem ℝ) :
    rayIntegral ox oz dx θ ((dx : ℝ) / 2) p d v = rayIntegral ox oz dx' θ ((dx' : ℝ) / 2) p d' v := by
  have hy : Ray.rayY dx d (Ray.mov dx ((dx : ℝ) / 2)) = Ray.rayY dx' d' (Ray.mov dx' ((dx' : ℝ) / 2)) := by
    rw [Ray.rayY_default, Ray.rayY_default]
    have : (dx : ℝ) + 2 * d' = dx' + 2 * d := by exact_mod_cast e
    linarith
  unfold rayIntegral tracerGeom Ray.rayTrace
  simp only [hy]

/-- **C188 (partial), the middle of the padded projections.**  If the second axis of the object is even, the
projections without padding are the middle of those with padding, for all objects and angles. -/
theorem unpadded_middle_partial {so' sc' : Bool} {n' k' : Option Nat} {cpu' : Nat} {debug' : Bool} {r' : Arr3 ℝ}
    (h : Project cpu debug oy ox oz u theta none emission .no false so sc n k r)
    (h' : Project cpu' debug' oy ox oz u theta none emission .yes false so' sc' n' k' r') (he : 2 ∣ ox) :
    ∀ p < theta.length, ∀ s < oy, ∀ d < ox, r.get p s d = r'.get p s (d + (r'.d2 - ox) / 2) := by
  obtain ⟨dx, hw, hd, hv⟩ := project_spec h (Or.inl rfl)
  obtain ⟨dx', hw', hd', hv'⟩ := project_spec h' (Or.inl rfl)
  obtain ⟨m2, mx, -⟩ := pad_margin hw'
  simp only [projectWidth, Except.ok.injEq] at hw
  subst hw
  simp only [Bool.false_eq_true, if_false, Prod.mk.injEq] at hd' hv hv'
  rw [hd'.2.2]
  intro p hp s hs d hd
  rw [hv s hs p hp d hd, hv' s hs p hp (d + (dx' - ox) / 2) (by omega), getCenter_default _ _ _ (by omega),
    getCenter_default _ _ _ (by omega), rayIntegral_shift (dx' := dx') (d' := d + (dx' - ox) / 2) (by omega)]

/-- **C188, the view at a right angle** is complete without padding. -/
theorem unpadded_axis1 (h : Project cpu debug oy ox oz u theta none true .no false so sc n k r) (hoz : 0 < oz)
    (hp : p < theta.length) (h0 : theta.getD p 0 = pi / 2) :
    ∀ s < oy, ∀ d < ox, r.get p s d = ∑ j ∈ Finset.range oz, u s ((ox - 1 - d) * oz + j) := by
  obtain ⟨dx, hw, hd, hv⟩ := project_spec h (Or.inl rfl)
  simp only [projectWidth, Except.ok.injEq] at hw
  subst hw
  simp only [Bool.false_eq_true, if_false, if_true] at hv
  intro s hs d hd
  have := project_axis1_partial (ox := ox) (k := 0) hoz (d := d) h0 (u s)
  simp only [Nat.mul_zero, Nat.add_zero, Nat.zero_add, Nat.zero_le, true_and, if_pos hd] at this
  rw [hv s hs p hp d hd, getCenter_default _ _ _ (by omega), this]

/-- The column of the object over detector pixel `d` at angle 0 (specification): the detector and the object have the
same middle. -/
def colOver (ox oz d : Nat) : Int := (2 * d + oz - ox + 1) / 2

/-- **C188, the view at angle 0.**  Pixel `d` holds the sum over the column `d + (oz - ox) / 2` (rounded up), if that
is a column of the object and its ray does not run along the border. -/
theorem unpadded_axis0 (h : Project cpu debug oy ox oz u theta none true .no false so sc n k r) (hox : 0 < ox)
    (hp : p < theta.length) (h0 : theta.getD p 0 = 0) :
    ∀ s < oy, ∀ d < ox, r.get p s d =
      if 0 < 2 * (d : Int) + oz - ox + 1 ∧ 2 * (d : Int) - oz - ox + 1 < 0 then
        ∑ i ∈ Finset.range ox, u s (i * oz + (colOver ox oz d).toNat) else 0 := by
  obtain ⟨dx, hw, hd, hv⟩ := project_spec h (Or.inl rfl)
  simp only [projectWidth, Except.ok.injEq] at hw
  subst hw
  simp only [Bool.false_eq_true, if_false, if_true] at hv
  intro s hs d hd
  rw [hv s hs p hp d hd, getCenter_default _ _ _ (by omega), rayIntegral_axis0 (by omega) h0]
  have hm : Ray.Margin oz ((d : ℝ) + 1 / 2 - (ox : ℝ) / 2) ↔
      0 < 2 * (d : Int) + oz - ox + 1 ∧ 2 * (d : Int) - oz - ox + 1 < 0 := by
    unfold Ray.Margin
    constructor
    · rintro ⟨a, b⟩
      constructor
      · have : (0 : ℝ) < 2 * d + oz - ox + 1 := by linarith
        exact_mod_cast this
      · have : (2 : ℝ) * d - oz - ox + 1 < 0 := by linarith
        exact_mod_cast this
    · rintro ⟨a, b⟩
      have a' : (1 : ℝ) ≤ 2 * d + oz - ox + 1 := by exact_mod_cast a
      have b' : (2 : ℝ) * d - oz - ox + 1 + 1 ≤ 0 := by exact_mod_cast b
      constructor <;> linarith
  have hf : ⌊(d : ℝ) + 1 / 2 - (ox : ℝ) / 2 + (oz : ℝ) / 2⌋ = colOver ox oz d := by
    rw [Int.floor_eq_iff]
    unfold colOver
    have e1 : 2 * ((2 * (d : Int) + oz - ox + 1) / 2) ≤ 2 * d + oz - ox + 1 := by omega
    have e2 : 2 * (d : Int) + oz - ox + 1 < 2 * ((2 * (d : Int) + oz - ox + 1) / 2) + 2 := by omega
    have e1' : (2 : ℝ) * ((2 * (d : Int) + oz - ox + 1) / 2 : Int) ≤ 2 * d + oz - ox + 1 := by exact_mod_cast e1
    have e2' : (2 : ℝ) * d + oz - ox + 1 < 2 * ((2 * (d : Int) + oz - ox + 1) / 2 : Int) + 2 := by exact_mod_cast e2
    constructor <;> linarith
  by_cases hc : 0 < 2 * (d : Int) + oz - ox + 1 ∧ 2 * (d : Int) - oz - ox + 1 < 0
  · rw [if_pos hc, if_pos (hm.2 hc), hf]
  · rw [if_neg hc, if_neg fun hh => hc (hm.1 hh)]

end Py

/-- Some call of `project` at one angle (the usual number of cores). -/
theorem one_call {oy ox oz : Nat} (hoy : 0 < oy) (u : Nat → Mem ℝ) (θ : ℝ) {pad : Pad} (hpad : pad ≠ .other) :
    ∃ r, Project 1 false oy ox oz u [θ] none true pad false true true none none r :=
  project_total 1 one_pos false hoy ox oz u [θ] none true hpad false true true none none (by simp)

/-- **C188.**  Without padding, the view at angle 0 of every object adds up to the total of the object exactly if the
third axis is not longer than the second and differs from it by an even number. -/
theorem unpadded_axis0_total_iff {ox oz : Nat} (hox : 0 < ox) :
    (∀ (u : Nat → Mem ℝ) (r : Arr3 ℝ), Project 1 false 1 ox oz u [0] none true .no false true true none none r →
      ∑ d ∈ Finset.range r.d2, r.get 0 0 d = sliceTotal ox oz (u 0)) ↔ oz = 0 ∨ (oz ≤ ox ∧ 2 ∣ ox - oz) := by
  have shape : ∀ {u : Nat → Mem ℝ} {r : Arr3 ℝ},
      Project 1 false 1 ox oz u [0] none true .no false true true none none r → r.d2 = ox := by
    intro u r h
    have := unpadded_shape h
    simp only [Bool.false_eq_true, if_false, Prod.mk.injEq] at this
    exact this.2.2
  constructor
  · intro h
    by_contra hc
    rw [not_or] at hc
    obtain ⟨hz, hc⟩ := hc
    obtain ⟨r, hr⟩ := one_call (oy := 1) (ox := ox) (oz := oz) one_pos (fun _ i => if i % oz = 0 then 1 else 0) 0
      (pad := .no) (by simp)
    have hv := unpadded_axis0 hr hox (p := 0) (by simp) (by simp) 0 one_pos
    have ht := h _ r hr
    rw [shape hr, Finset.sum_eq_zero] at ht
    · have e : sliceTotal ox oz (fun i => if i % oz = 0 then (1 : ℝ) else 0) = ox := by
        unfold sliceTotal
        rw [Finset.sum_eq_single 0]
        · simp
        · intro b hb h0
          refine Finset.sum_eq_zero fun i _ => ?_
          rw [Finset.mem_range] at hb
          show (if (i * oz + b) % oz = 0 then (1 : ℝ) else 0) = 0
          rw [if_neg]
          rw [Nat.mul_add_mod_self_right, Nat.mod_eq_of_lt hb]
          exact h0
        · intro hh
          exact absurd (Finset.mem_range.2 (by omega)) hh
      rw [e] at ht
      have : (0 : ℝ) < ox := by exact_mod_cast hox
      linarith
    · intro d hd
      rw [Finset.mem_range] at hd
      rw [hv d hd]
      split
      · rename_i hcond
        refine Finset.sum_eq_zero fun i _ => ?_
        have h1 : 0 < (colOver ox oz d).toNat ∧ (colOver ox oz d).toNat < oz := by
          unfold colOver
          omega
        rw [if_neg]
        rw [Nat.mul_add_mod_self_right, Nat.mod_eq_of_lt h1.2]
        omega
      · rfl
  · intro h u r hr
    rw [shape hr]
    rcases h with rfl | ⟨hle, h2⟩
    · rw [Finset.sum_eq_zero]
      · simp [sliceTotal]
      · intro d hd
        rw [Finset.mem_range] at hd
        rw [unpadded_axis0 hr hox (p := 0) (by simp) (by simp) 0 one_pos d hd, if_neg (by omega)]
    · have hv := unpadded_axis0 hr hox (p := 0) (by simp) (by simp) 0 one_pos
      rw [Finset.sum_congr rfl fun d hd => hv d (Finset.mem_range.1 hd), ← Finset.sum_filter]
      symm
      unfold sliceTotal
      refine Finset.sum_bij (fun iy _ => iy + (ox - oz) / 2) ?_ ?_ ?_ ?_
      · intro iy hi
        rw [Finset.mem_range] at hi
        rw [Finset.mem_filter, Finset.mem_range]
        omega
      · intro a _ b _ e
        exact Nat.add_right_cancel e
      · intro d hd
        rw [Finset.mem_filter, Finset.mem_range] at hd
        exact ⟨d - (ox - oz) / 2, Finset.mem_range.mpr (by omega), by omega⟩
      · intro iy hi
        have : (colOver ox oz (iy + (ox - oz) / 2)).toNat = iy := by
          unfold colOver
          omega
        rw [this]

/-- **C188.**  The projections without padding are the middle of those with padding, for all objects and angles,
exactly if the second axis of the object is even. -/
theorem unpadded_middle_iff {ox oz : Nat} (hox : 0 < ox) (hoz : 0 < oz) :
    (∀ (u : Nat → Mem ℝ) (θ : ℝ) (r r' : Arr3 ℝ),
      Project 1 false 1 ox oz u [θ] none true .no false true true none none r →
      Project 1 false 1 ox oz u [θ] none true .yes false true true none none r' →
      ∀ d < ox, r.get 0 0 d = r'.get 0 0 (d + (r'.d2 - ox) / 2)) ↔ 2 ∣ ox := by
  constructor
  · intro h
    by_contra hc
    obtain ⟨r, hr⟩ := one_call (oy := 1) (ox := ox) (oz := oz) one_pos (fun _ _ => 1) (pi / 2) (pad := .no) (by simp)
    obtain ⟨r', hr'⟩ := one_call (oy := 1) (ox := ox) (oz := oz) one_pos (fun _ _ => 1) (pi / 2) (pad := .yes)
      (by simp)
    have h1 := h _ _ _ _ hr hr' 0 hox
    obtain ⟨hm, hv'⟩ := project_axis1_exact hr' hoz (p := 0) (by simp) (by simp)
    rw [unpadded_axis1 hr hoz (p := 0) (by simp) (by simp) 0 one_pos 0 hox, hv' 0 one_pos _ (by omega),
      if_neg (by omega)] at h1
    simp only [Finset.sum_const, Finset.card_range, nsmul_eq_mul, mul_one] at h1
    have : oz = 0 := by exact_mod_cast h1
    omega
  · intro he u θ r r' hr hr' d hd
    exact unpadded_middle_partial hr hr' he 0 (by simp) 0 one_pos d hd

/-- A concrete case: a call without padding on an object with two rows and four columns.  The outer columns are not
seen at angle 0. -/
example : ∃ r, Project 1 false 1 2 4 (fun _ i => (i : ℝ)) [0] none true .no false true true none none r ∧
    r.d2 = 2 ∧ r.get 0 0 0 = 6 ∧ r.get 0 0 1 = 8 := by
  obtain ⟨r, hr⟩ := one_call (oy := 1) (ox := 2) (oz := 4) one_pos (fun _ i => (i : ℝ)) 0 (pad := .no) (by simp)
  have hs := unpadded_shape hr
  simp only [Bool.false_eq_true, if_false, Prod.mk.injEq] at hs
  have hv := unpadded_axis0 hr (by norm_num) (p := 0) (by simp) (by simp) 0 one_pos
  refine ⟨r, hr, hs.2.2, ?_, ?_⟩
  · rw [hv 0 (by norm_num)]
    norm_num [colOver, Finset.sum_range_succ]
  · rw [hv 1 (by norm_num), show (colOver 2 4 1).toNat = 2 from rfl]
    norm_num [Finset.sum_range_succ]

end Tomopy.Sim
