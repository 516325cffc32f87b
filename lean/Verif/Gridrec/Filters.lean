import Verif.Gridrec.Tables
import Mathlib.Analysis.SpecialFunctions.Trigonometric.Bounds

/-!
# gridrec filters (C72, C73)
-/

set_option linter.unusedSectionVars false

namespace Tomopy.Gridrec

/-- The filter names documented for `filter_name`. -/
def documented : List String :=
  ["none", "shepp", "cosine", "hann", "hamming", "ramlak", "parzen", "butterworth", "custom",
   "custom2d"]

/-- C72 is false of the code: a name that is not documented is not rejected, the Shepp-Logan filter
is used. -/
theorem unknown_filter_is_shepp (name : String) (h : name ∉ documented) :
    getFilter name = .shepp := by
  unfold getFilter
  simp only [documented, List.mem_cons, List.not_mem_nil, or_false, not_or] at h
  obtain ⟨h1, h2, h3, h4, h5, h6, h7, h8, h9, h10⟩ := h
  simp [h1, h2, h3, h4, h5, h6, h7, h8, h9, h10]

example : "ram-lak" ∉ documented := by decide

/-- Frequencies up to the Nyquist frequency: `x = j / pdim` with `j < pdim / 2`. -/
theorem freq_bounds {pd j : Nat} (hj : j < pd / 2) :
    0 ≤ (j : ℝ) / pd ∧ (j : ℝ) / pd < 1 / 2 := by
  have hp : 0 < pd := by omega
  have hpR : (0 : ℝ) < pd := by exact_mod_cast hp
  refine ⟨by positivity, ?_⟩
  rw [div_lt_iff₀ hpR]
  have : (2 * j : ℝ) < pd := by exact_mod_cast (show 2 * j < pd by omega)
  linarith

theorem shepp_bounds (x : ℝ) (h0 : 0 < x) (h : x < 1 / 2) :
    0 ≤ Real.sin (Real.pi * x) / (Real.pi * x) ∧ Real.sin (Real.pi * x) / (Real.pi * x) ≤ 1 := by
  have hp := Real.pi_pos
  have hx : 0 < Real.pi * x := by positivity
  have hx2 : Real.pi * x ≤ Real.pi := by nlinarith
  exact ⟨div_nonneg (Real.sin_nonneg_of_nonneg_of_le_pi hx.le hx2) hx.le,
    (div_le_one hx).2 (Real.sin_le hx.le)⟩

/-- C72 (part): the filters documented as low-pass variants of the ramp are exactly zero at
frequency zero and lie between zero and the ramp at every frequency used.  For Parzen this needs a
cutoff of at least one half.  Missing for the full property: smaller Parzen cutoffs, for which it is
false (`parzen_negative`). -/
theorem filter_below_ramp_partial (f : Filter)
    (hf : f ∈ [Filter.shepp, .cosine, .hann, .hamming, .ramlak, .parzen, .butterworth])
    (pd p j : Nat) (hj : j < pd / 2) (pars : List ℝ) (c b : ℝ) (hp0 : pars[0]? = some c)
    (hp1 : pars[1]? = some b) (hc : 0 < c) (hz : f = .parzen → 1 / 2 ≤ c) :
    ∃ v, f.eval ((j : ℝ) / pd) j p (pd / 2) pars = some v ∧ 0 ≤ v ∧ v ≤ 2 * ((j : ℝ) / pd) ∧
      (j = 0 → v = 0) := by
  obtain ⟨h0, h1⟩ := freq_bounds hj
  have hx0 : j = 0 → (j : ℝ) / pd = 0 := by rintro rfl; simp
  have hxp : j ≠ 0 → 0 < (j : ℝ) / pd := by
    intro h
    have : 0 < j := Nat.pos_of_ne_zero h
    have : 0 < pd := by omega
    positivity
  generalize (j : ℝ) / pd = x at *
  have habs : |2 * x| = 2 * x := abs_of_nonneg (by linarith)
  have habs1 : |x| = x := abs_of_nonneg h0
  have hpi := Real.pi_pos
  have ramp : ∀ g : ℝ, 0 ≤ g → g ≤ 1 →
      0 ≤ 2 * x * g ∧ 2 * x * g ≤ 2 * x ∧ (j = 0 → 2 * x * g = 0) := by
    intro g g0 g1
    refine ⟨by positivity, by nlinarith, fun h => by rw [hx0 h]; ring⟩
  simp only [List.mem_cons, List.not_mem_nil, or_false] at hf
  rcases hf with rfl | rfl | rfl | rfl | rfl | rfl | rfl
  · refine ⟨_, rfl, ?_⟩
    by_cases hj0 : j = 0
    · simp only [hj0, if_true]
      exact ⟨le_refl _, by linarith, by simp⟩
    · simp only [hj0, if_false, habs]
      obtain ⟨s0, s1⟩ := shepp_bounds x (hxp hj0) h1
      have := ramp _ s0 s1
      exact ⟨this.1, this.2.1, by simp⟩
  · refine ⟨_, rfl, ?_⟩
    rw [habs]
    refine ramp _ (Real.cos_nonneg_of_neg_pi_div_two_le_of_le ?_ ?_) (Real.cos_le_one _)
    · nlinarith
    · nlinarith
  · refine ⟨|2 * x| * 0.5 * (1 + Real.cos (2 * Real.pi * x / c)), by simp [Filter.eval, hp0], ?_⟩
    rw [habs, mul_assoc]
    have a1 := Real.cos_le_one (2 * Real.pi * x / c)
    have a2 := Real.neg_one_le_cos (2 * Real.pi * x / c)
    exact ramp _ (by linarith) (by linarith)
  · refine ⟨|2 * x| * (0.54 + 0.46 * Real.cos (2 * Real.pi * x / c)),
      by simp [Filter.eval, hp0], ?_⟩
    rw [habs]
    have a1 := Real.cos_le_one (2 * Real.pi * x / c)
    have a2 := Real.neg_one_le_cos (2 * Real.pi * x / c)
    exact ramp _ (by linarith) (by linarith)
  · refine ⟨_, rfl, ?_⟩
    rw [habs]
    have := ramp 1 (by norm_num) (by norm_num)
    simpa using this
  · refine ⟨|2 * x| * (1 - |x| / c) ^ 3, by simp [Filter.eval, hp0], ?_⟩
    rw [habs, habs1]
    have hc2 := hz rfl
    have a1 : x / c ≤ 1 := (div_le_one hc).2 (by linarith)
    have a2 : 0 ≤ x / c := by positivity
    exact ramp _ (pow_nonneg (by linarith) 3) (pow_le_one₀ (by linarith) (by linarith))
  · refine ⟨|2 * x| / (1 + (x / c) ^ (2 * b)), by simp [Filter.eval, hp0, hp1], ?_⟩
    rw [habs, div_eq_mul_inv]
    have a2 : 0 ≤ (x / c) ^ (2 * b) := Real.rpow_nonneg (by positivity) _
    exact ramp _ (by positivity) (inv_le_one_of_one_le₀ (by linarith))

/-- The defaults `filter_par = [0.5, 8]` (`source/tomopy/recon/algorithm.py`) meet the
hypotheses. -/
example : ([(0.5 : ℝ), 8] : List ℝ)[0]? = some (0.5 : ℝ) ∧
    ([(0.5 : ℝ), 8] : List ℝ)[1]? = some (8 : ℝ) ∧
    (0 : ℝ) < 0.5 ∧ (1 : ℝ) / 2 ≤ 0.5 ∧ 3 < 128 / 2 := by
  refine ⟨rfl, rfl, ?_, ?_, ?_⟩ <;> norm_num

/-- C72 is false of the code for the Parzen filter: beyond its cutoff it is negative. -/
theorem parzen_negative (pd p j : Nat) (hj : j < pd / 2) (c b : ℝ) (hc : 0 < c)
    (h : c < (j : ℝ) / pd) :
    ∃ v, Filter.parzen.eval ((j : ℝ) / pd) j p (pd / 2) [c, b] = some v ∧ v < 0 := by
  obtain ⟨h0, -⟩ := freq_bounds hj
  refine ⟨_, rfl, ?_⟩
  generalize (j : ℝ) / pd = x at *
  have hx : 0 < x := hc.trans h
  rw [abs_of_nonneg (by linarith : (0 : ℝ) ≤ 2 * x), abs_of_nonneg h0]
  have : 1 < x / c := (one_lt_div hc).2 h
  have h3 : (1 - x / c) ^ 3 < 0 := Odd.pow_neg (by decide) (by linarith)
  nlinarith

example : (30 : Nat) < 128 / 2 ∧ (0.2 : ℝ) < ((30 : Nat) : ℝ) / (128 : Nat) := by norm_num

/-- C73 (part): a custom filter reads exactly the elements `0 .. pdim / 2 - 1` of `filter_par`, a
custom two-dimensional one `0 .. dt * pdim / 2 - 1`; with an array of at least that length all reads
are in bounds and return the given values.  Missing: nothing checks the length
(`custom_filter_out_of_bounds`). -/
theorem custom_filter_partial (dx dt p j : Nat) (pars : List ℝ) (hp : p < dt)
    (hj : j < pdim dx / 2) :
    (pdim dx / 2 ≤ pars.length → filterAt "custom" (pdim dx) pars p j = some (pars.getD j 0)) ∧
    (dt * (pdim dx / 2) ≤ pars.length →
      filterAt "custom2d" (pdim dx) pars p j = some (pars.getD (p * (pdim dx / 2) + j) 0)) := by
  constructor
  · intro h
    show pars[j]? = _
    rw [List.getD_eq_getElem?_getD, List.getElem?_eq_getElem (by omega)]
    rfl
  · intro h
    have e : getFilter "custom2d" = .custom2d := by decide
    unfold filterAt
    rw [e]
    simp only [if_true]
    show pars[p * (pdim dx / 2) + j]? = _
    have : p * (pdim dx / 2) + j < dt * (pdim dx / 2) := by
      calc p * (pdim dx / 2) + j < p * (pdim dx / 2) + pdim dx / 2 := by omega
        _ = (p + 1) * (pdim dx / 2) := by ring
        _ ≤ _ := Nat.mul_le_mul_right _ hp
    rw [List.getD_eq_getElem?_getD, List.getElem?_eq_getElem (by omega)]
    rfl

/-- C73 is false of the code: a shorter array, for example the default `filter_par` of two elements,
is read beyond its end for every detector width. -/
theorem custom_filter_out_of_bounds (dx : Nat) (pars : List ℝ) (h : pars.length < pdim dx / 2) :
    ∃ j < pdim dx / 2, filterAt "custom" (pdim dx) pars 0 j = none :=
  ⟨pars.length, h, by show pars[pars.length]? = none; simp⟩

theorem custom_default_out_of_bounds (dx : Nat) :
    ∃ j < pdim dx / 2, filterAt "custom" (pdim dx) [0.5, 8] 0 j = none := by
  obtain ⟨m, hm, hm8⟩ := pdim_even dx
  exact custom_filter_out_of_bounds dx _ (by simp; omega)

/-- C73: the documented length `next_power_of_2(dx) / 2` is the one needed for detectors wider than
eight pixels. -/
theorem documented_length (dx : Nat) (h : 8 < dx) : pdim dx = 2 ^ Nat.clog 2 dx := by
  obtain ⟨h1, h2, ⟨k, hk⟩, h3⟩ := pdim_spec dx
  rw [hk]
  congr 1
  have hle : Nat.clog 2 dx ≤ k := Nat.clog_le_of_le_pow (by rw [← hk]; exact h1)
  refine le_antisymm ?_ hle
  by_contra hlt
  have hk1 : Nat.clog 2 dx ≤ k - 1 := by omega
  have h4 := Nat.le_pow_clog (by norm_num : 1 < 2) dx
  have h5 : 2 ^ Nat.clog 2 dx ≤ 2 ^ (k - 1) := Nat.pow_le_pow_right (by norm_num) hk1
  obtain ⟨q, rfl⟩ : ∃ q, k = q + 1 := ⟨k - 1, by omega⟩
  rw [Nat.add_sub_cancel] at h5
  rw [pow_succ] at hk
  omega

example : (8 : Nat) < 100 := by norm_num

/-- C73 is false of the code for narrow detectors: with the documented length the filter is read
beyond its end. -/
theorem documented_length_too_short (dx : Nat) (h : dx ≤ 8) (pars : List ℝ)
    (hp : pars.length = 2 ^ Nat.clog 2 dx / 2) :
    ∃ j < pdim dx / 2, filterAt "custom" (pdim dx) pars 0 j = none := by
  apply custom_filter_out_of_bounds
  have h2 := (pdim_spec dx).2.1
  have : Nat.clog 2 dx ≤ 3 := Nat.clog_le_of_le_pow (by omega)
  have h5 : 2 ^ Nat.clog 2 dx ≤ 2 ^ 3 := Nat.pow_le_pow_right (by norm_num) this
  omega

example : ([1, 2, 3] : List ℝ).length + 1 = 2 ^ Nat.clog 2 8 / 2 := by
  have : Nat.clog 2 8 = 3 := by decide +kernel
  rw [this]; rfl

end Tomopy.Gridrec
