import Verif.Gridrec.Index
import Mathlib.Tactic.IntervalCases

/-! Exactly which grid sizes keep gridrec inside its arrays (C120). -/
set_option linter.unusedSectionVars false

namespace Tomopy.Gridrec

/-- **C120** All accesses of gridrec are inside the arrays exactly if both grid sizes are smaller
than the padded detector width. -/
theorem gridrec_in_bounds_iff (z : Sizes) (co si : Nat → ℝ) (hdy : 1 ≤ z.dy) (hdt : 1 ≤ z.dt)
    (hdx : 1 ≤ z.dx) (h2 : 1 ≤ z.ngy) :
    (∃ tr, trace z co si = some tr ∧ ∀ a ∈ tr, InB z a) ↔
      z.ngx < pdim z.dx ∧ z.ngy < pdim z.dx := by
  constructor
  · rintro ⟨tr, h, hb⟩
    by_contra hc
    obtain ⟨tr', h', a, ha, _, hn⟩ := gridrec_out_of_bounds z co si hdy hdt hdx h2 (by omega)
    rw [h, Option.some.injEq] at h'
    subst h'
    exact hn (hb a ha)
  · rintro ⟨hx, hy⟩
    exact gridrec_in_bounds_partial z co si hx hy

/-- Both sides occur for a detector of 100 pixels. -/
example (co si : Nat → ℝ) : (∃ tr, trace ⟨2, 3, 100, 100, 90, false⟩ co si = some tr ∧
      ∀ a ∈ tr, InB ⟨2, 3, 100, 100, 90, false⟩ a) ∧
    ¬ ∃ tr, trace ⟨2, 3, 100, 128, 90, false⟩ co si = some tr ∧
      ∀ a ∈ tr, InB ⟨2, 3, 100, 128, 90, false⟩ a := by
  constructor
  · refine (gridrec_in_bounds_iff _ co si ?_ ?_ ?_ ?_).2 ?_ <;> simp [pdim, pdimFrom]
  · intro h
    have := (gridrec_in_bounds_iff _ co si (by simp) (by simp) (by simp) (by simp)).1 h
    simp [pdim, pdimFrom] at this

/-- **C120** With the default grid (as large as the detector) gridrec stays inside its arrays
exactly if the detector width is no power of two from 16 on. -/
theorem gridrec_default_in_bounds_iff (z : Sizes) (co si : Nat → ℝ) (hdy : 1 ≤ z.dy)
    (hdt : 1 ≤ z.dt) (hdx : 1 ≤ z.dx) (hx : z.ngx = z.dx) (hy : z.ngy = z.dx) :
    (∃ tr, trace z co si = some tr ∧ ∀ a ∈ tr, InB z a) ↔ ¬ ∃ k, 4 ≤ k ∧ z.dx = 2 ^ k := by
  rw [gridrec_in_bounds_iff z co si hdy hdt hdx (by omega), hx, hy, and_self]
  obtain ⟨h1, h2, ⟨k, hk⟩, -⟩ := pdim_spec z.dx
  constructor
  · rintro h ⟨j, hj, e⟩
    have := pdim_pow j hj
    rw [← e] at this
    omega
  · intro h
    by_contra hc
    have e : z.dx = pdim z.dx := by omega
    refine h ⟨k, ?_, by omega⟩
    by_contra hk4
    have : 2 ^ k ≤ 2 ^ 3 := Nat.pow_le_pow_right (by norm_num) (by omega)
    omega

/-- Both sides occur: 100 and 64 pixels. -/
example : (¬ ∃ k, 4 ≤ k ∧ 100 = 2 ^ k) ∧ ∃ k, 4 ≤ k ∧ 64 = 2 ^ k := by
  refine ⟨?_, 6, by norm_num, by norm_num⟩
  rintro ⟨k, h, e⟩
  rcases Nat.lt_or_ge k 7 with h7 | h7
  · interval_cases k <;> omega
  · have : 2 ^ 7 ≤ 2 ^ k := Nat.pow_le_pow_right (by norm_num) h7
    omega

end Tomopy.Gridrec
