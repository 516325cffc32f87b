import Verif.Stripe.FitModel
import Verif.Stripe.Filter

/-! Theorems about the fitting-based stripe removal (C92). -/
set_option linter.unusedSectionVars false

namespace Tomopy.Stripe
open Phase (rot fft2 ifft2)

noncomputable section

/-! ### The polynomial fit -/

theorem mirrorSrc_lt {n : Nat} (hn : 0 < n) (z : Int) : mirrorSrc n z < n := by
  unfold mirrorSrc
  split_ifs with h
  · exact hn
  · dsimp only
    have h1 : 0 ≤ z % (2 * ((n : Int) - 1)) := Int.emod_nonneg _ (by omega)
    have h2 : z % (2 * ((n : Int) - 1)) < 2 * ((n : Int) - 1) := Int.emod_lt_of_pos _ (by omega)
    split_ifs <;> omega

theorem savgol_congr {n : Nat} (hn : 0 < n) (coef : Nat → Nat → Nat → ℝ) (window order : Nat)
    {x y : Nat → ℝ} (h : ∀ t < n, x t = y t) (t : Nat) :
    savgol coef n window order x t = savgol coef n window order y t := by
  unfold savgol
  exact Finset.sum_congr rfl fun j _ => by rw [h _ (mirrorSrc_lt hn _)]

theorem savgol_smul (coef : Nat → Nat → Nat → ℝ) (n window order : Nat) (a : ℝ) (x : Nat → ℝ) (t : Nat) :
    savgol coef n window order (fun t => a * x t) t = a * savgol coef n window order x t := by
  unfold savgol
  rw [Finset.mul_sum]
  exact Finset.sum_congr rfl fun j _ => by ring

theorem savgol_const (coef : Nat → Nat → Nat → ℝ) {n window order : Nat}
    (h1 : ∑ j ∈ Finset.range window, coef window order j = 1) (c : ℝ) (t : Nat) :
    savgol coef n window order (fun _ => c) t = c := by
  unfold savgol
  rw [← Finset.sum_mul, h1, one_mul]

theorem mirrorSrc_rev {n : Nat} (hn : 1 < n) (z : Int) :
    mirrorSrc n ((n : Int) - 1 - z) = n - 1 - mirrorSrc n z := by
  unfold mirrorSrc
  have hn' : ¬ n ≤ 1 := by omega
  simp only [if_neg hn']
  generalize hp : 2 * ((n : Int) - 1) = p
  have hz := Int.emod_add_mul_ediv z p
  have h0 := Int.emod_nonneg z (show p ≠ 0 by omega)
  have h1 := Int.emod_lt_of_pos z (show 0 < p by omega)
  have hy := Int.emod_add_mul_ediv ((n : Int) - 1 - z) p
  have h2 := Int.emod_nonneg ((n : Int) - 1 - z) (show p ≠ 0 by omega)
  have h3 := Int.emod_lt_of_pos ((n : Int) - 1 - z) (show 0 < p by omega)
  generalize z % p = a at *
  generalize ((n : Int) - 1 - z) % p = b at *
  generalize z / p = k at *
  generalize ((n : Int) - 1 - z) / p = l at *
  have hs : b = (n : Int) - 1 - a - p * (k + l) := by linarith [mul_add p k l]
  have hkl : k + l = 0 ∨ k + l = -1 := by
    have : k + l < 1 := by nlinarith
    have : -2 < k + l := by nlinarith
    omega
  rcases hkl with h | h <;> rw [h] at hs <;> simp only [mul_zero, mul_neg, mul_one] at hs <;>
    clear hz hy <;> subst hs <;> split_ifs <;> omega

/-- **C92** The fit treats both ends of a column alike: for coefficients that are symmetric (those of
`savgol_filter` without a derivative are) the fit of the reversed column is the reversed fit. -/
theorem fit_reverse (coef : Nat → Nat → Nat → ℝ) {n window order : Nat} (hn : 1 < n)
    (hodd : window % 2 = 1)
    (hsym : ∀ j, j < window → coef window order (window - 1 - j) = coef window order j)
    (x : Nat → ℝ) (t : Nat) (ht : t < n) :
    savgol coef n window order (fun s => x (n - 1 - s)) t = savgol coef n window order x (n - 1 - t) := by
  unfold savgol
  rw [← Finset.sum_range_reflect]
  refine Finset.sum_congr rfl fun j hj => ?_
  have hj := Finset.mem_range.1 hj
  rw [hsym j hj]
  congr 1
  dsimp only
  rw [← mirrorSrc_rev hn]
  congr 2
  omega

example : ∃ coef : Nat → Nat → Nat → ℝ, (∀ j, j < 3 → coef 3 1 (3 - 1 - j) = coef 3 1 j) ∧
    savgol coef 4 3 1 (fun s => (s : ℝ) ^ 2) 1 = 5 / 3 := by
  refine ⟨fun _ _ _ => 1 / 3, fun _ _ => rfl, ?_⟩
  simp [savgol, Finset.sum_range_succ, mirrorSrc]
  norm_num

/-- **C92** The window given to the fit is odd and the order smaller than it, as `savgol_filter`
demands, for every sinogram and every order. -/
theorem fit_arguments_valid {nrow : Nat} (hn : 0 < nrow) (order : Nat) :
    fitWindow nrow % 2 = 1 ∧ fitWindow nrow ≤ nrow ∧ fitOrder order (fitWindow nrow) < fitWindow nrow ∧
      fitOrder order (fitWindow nrow) ≤ order := by
  unfold fitWindow fitOrder
  split_ifs <;> omega

/-! ### The two-dimensional filter -/

theorem fitPad_smul (nrow ncol pad : Nat) (a : ℝ) (A : Nat → Nat → ℝ) (r c : Nat) :
    fitPad nrow ncol pad (fun t i => a * A t i) r c = a * fitPad nrow ncol pad A r c := by
  unfold fitPad
  simp only
  split_ifs
  · rw [← Finset.mul_sum, mul_div_assoc]
  · rfl

theorem fitPad_const {nrow : Nat} (hn : 0 < nrow) (ncol pad : Nat) (v : ℝ) (r c : Nat) :
    fitPad nrow ncol pad (fun _ _ => v) r c = v := by
  have : (nrow : ℝ) ≠ 0 := by exact_mod_cast hn.ne'
  unfold fitPad
  simp only
  split_ifs
  · rw [Finset.sum_const, Finset.card_range, nsmul_eq_mul]
    field_simp
  · rfl

theorem fitPad_congr {nrow ncol pad : Nat} (hc : 0 < ncol) {A B : Nat → Nat → ℝ}
    (h : ∀ t < nrow, ∀ i < ncol, A t i = B t i) (r c : Nat) :
    fitPad nrow ncol pad A r c = fitPad nrow ncol pad B r c := by
  unfold fitPad
  have hi : min (c - pad) (ncol - 1) < ncol := by omega
  simp only
  split_ifs with h1
  · congr 1
    exact Finset.sum_congr rfl fun t ht => h t (Finset.mem_range.1 ht) _ hi
  · exact h _ (by omega) _ hi

theorem filter2d_congr {nrow ncol pad : Nat} (hc : 0 < ncol) {win : Nat → Nat → ℝ} {A B : Nat → Nat → ℝ}
    (h : ∀ t < nrow, ∀ i < ncol, A t i = B t i) (t i : Nat) :
    filter2d nrow ncol pad win A t i = filter2d nrow ncol pad win B t i := by
  unfold filter2d
  simp only [fitPad_congr hc h]

theorem fft2_smul (h w : Nat) (a : ℂ) (f : Nat → Nat → ℂ) (u v : Nat) :
    fft2 h w (fun r c => a * f r c) u v = a * fft2 h w f u v := by
  unfold fft2
  simp only [Finset.mul_sum, mul_assoc]

theorem ifft2_smul (h w : Nat) (a : ℂ) (f : Nat → Nat → ℂ) (u v : Nat) :
    ifft2 h w (fun r c => a * f r c) u v = a * ifft2 h w f u v := by
  unfold ifft2
  rw [← mul_div_assoc]
  simp only [Finset.mul_sum, mul_assoc]

theorem filter2d_smul (nrow ncol pad : Nat) (win : Nat → Nat → ℝ) (a : ℝ) (A : Nat → Nat → ℝ) (t i : Nat) :
    filter2d nrow ncol pad win (fun t i => a * A t i) t i = a * filter2d nrow ncol pad win A t i := by
  unfold filter2d
  have e : ∀ r c, ((a * fitPad nrow ncol pad A r c * matSign r c : ℝ) : ℂ) =
      (a : ℂ) * ((fitPad nrow ncol pad A r c * matSign r c : ℝ) : ℂ) := fun r c => by push_cast; ring
  simp only [fitPad_smul, e, fft2_smul]
  simp only [mul_assoc, ifft2_smul]
  rw [Complex.re_ofReal_mul]

theorem mean2_smul (nrow ncol : Nat) (a : ℝ) (A : Nat → Nat → ℝ) :
    mean2 nrow ncol (fun t i => a * A t i) = a * mean2 nrow ncol A := by
  unfold mean2
  simp only [← Finset.mul_sum]
  rw [mul_div_assoc]

theorem mean2_congr {nrow ncol : Nat} {A B : Nat → Nat → ℝ}
    (h : ∀ t < nrow, ∀ i < ncol, A t i = B t i) : mean2 nrow ncol A = mean2 nrow ncol B := by
  unfold mean2
  congr 1
  exact Finset.sum_congr rfl fun t ht => Finset.sum_congr rfl fun i hi =>
    h t (Finset.mem_range.1 ht) i (Finset.mem_range.1 hi)

/-! ### C92 -/

/-- The fit of a sinogram, column by column. -/
def fitImage (coef : Nat → Nat → Nat → ℝ) (nrow order : Nat) (X : Nat → Nat → ℝ) : Nat → Nat → ℝ :=
  fun t i => savgol coef nrow (fitWindow nrow) (fitOrder order (fitWindow nrow)) (fun t => X t i) t

/-- **C92** The corrected pixel: the smoothed fit, scaled to the mean of the fit, times the ratio of
pixel to fit; undefined exactly where the fit, or the mean of the smoothed fit, is zero. -/
theorem rs_fit_value (coef : Nat → Nat → Nat → ℝ) (nrow ncol pad order : Nat) (win : Nat → Nat → ℝ)
    (X : Nat → Nat → ℝ) (t i : Nat) (v : ℝ) :
    rsFit coef nrow ncol pad order win X t i = some v ↔
      mean2 nrow ncol (filter2d nrow ncol pad win (fitImage coef nrow order X)) ≠ 0 ∧
      fitImage coef nrow order X t i ≠ 0 ∧
      v * (fitImage coef nrow order X t i *
          mean2 nrow ncol (filter2d nrow ncol pad win (fitImage coef nrow order X))) =
        X t i * (filter2d nrow ncol pad win (fitImage coef nrow order X) t i *
          mean2 nrow ncol (fitImage coef nrow order X)) := by
  unfold rsFit
  change (if mean2 nrow ncol (filter2d nrow ncol pad win (fitImage coef nrow order X)) = 0 ∨
      fitImage coef nrow order X t i = 0 then none else
    some (X t i / fitImage coef nrow order X t i * (mean2 nrow ncol (fitImage coef nrow order X) *
      filter2d nrow ncol pad win (fitImage coef nrow order X) t i /
        mean2 nrow ncol (filter2d nrow ncol pad win (fitImage coef nrow order X))))) = some v ↔ _
  split_ifs with h
  · constructor
    · intro h'; cases h'
    · rintro ⟨h1, h2, -⟩
      rcases h with h | h
      · exact absurd h h1
      · exact absurd h h2
  · rw [not_or] at h
    obtain ⟨h1, h2⟩ := h
    rw [Option.some.injEq]
    constructor
    · rintro rfl
      refine ⟨h1, h2, ?_⟩
      field_simp
    · rintro ⟨-, -, h3⟩
      field_simp
      linarith

/-- **C92** Multiplying the sinogram by a number multiplies the result by it. -/
theorem rs_fit_scale {coef : Nat → Nat → Nat → ℝ} {nrow ncol pad order : Nat} {win : Nat → Nat → ℝ}
    {X : Nat → Nat → ℝ} {a : ℝ} (ha : a ≠ 0) (t i : Nat) :
    rsFit coef nrow ncol pad order win (fun t i => a * X t i) t i =
      (rsFit coef nrow ncol pad order win X t i).map fun v => a * v := by
  have hf : fitImage coef nrow order (fun t i => a * X t i) = fun t i => a * fitImage coef nrow order X t i := by
    funext t i
    unfold fitImage
    rw [savgol_smul]
  have hs : filter2d nrow ncol pad win (fun t i => a * fitImage coef nrow order X t i) =
      fun t i => a * filter2d nrow ncol pad win (fitImage coef nrow order X) t i := by
    funext t i
    rw [filter2d_smul]
  refine Option.ext fun v => ?_
  rw [rs_fit_value, hf, hs, mean2_smul, mean2_smul, Option.map_eq_some_iff]
  constructor
  · rintro ⟨h1, h2, h3⟩
    have h1' := right_ne_zero_of_mul h1
    have h2' := right_ne_zero_of_mul h2
    refine ⟨v / a, (rs_fit_value ..).2 ⟨h1', h2', ?_⟩, by field_simp⟩
    field_simp
    have h4 : a ^ 2 * (v * (fitImage coef nrow order X t i * mean2 nrow ncol
        (filter2d nrow ncol pad win (fitImage coef nrow order X)))) = a ^ 2 * (a * (X t i *
          (filter2d nrow ncol pad win (fitImage coef nrow order X) t i *
            mean2 nrow ncol (fitImage coef nrow order X)))) := by linear_combination h3
    have := mul_left_cancel₀ (pow_ne_zero 2 ha) h4
    linear_combination this
  · rintro ⟨v', h, rfl⟩
    obtain ⟨h1, h2, h3⟩ := (rs_fit_value ..).1 h
    refine ⟨mul_ne_zero ha h1, mul_ne_zero ha h2, ?_⟩
    linear_combination a ^ 3 * h3

/-- **C92** Multiplicative stripes cancel.  If every column of `B` is multiplied by its own factor
`g i`, the factors enter the result only through the smoothed fit: pixel and fit keep their ratio. -/
theorem rs_fit_stripes_cancel {coef : Nat → Nat → Nat → ℝ} {nrow ncol pad order : Nat} {win : Nat → Nat → ℝ}
    {B : Nat → Nat → ℝ} {g : Nat → ℝ} {t i : Nat} {v : ℝ}
    (h : rsFit coef nrow ncol pad order win (fun t i => g i * B t i) t i = some v) :
    v = B t i / fitImage coef nrow order B t i *
      (mean2 nrow ncol (fun t i => g i * fitImage coef nrow order B t i) *
        filter2d nrow ncol pad win (fun t i => g i * fitImage coef nrow order B t i) t i /
        mean2 nrow ncol (filter2d nrow ncol pad win fun t i => g i * fitImage coef nrow order B t i)) := by
  have hf : fitImage coef nrow order (fun t i => g i * B t i) = fun t i => g i * fitImage coef nrow order B t i := by
    funext t i
    unfold fitImage
    rw [savgol_smul]
  obtain ⟨h1, h2, h3⟩ := (rs_fit_value ..).1 h
  rw [hf] at h1 h2 h3
  have h4 : g i ≠ 0 := left_ne_zero_of_mul h2
  have h5 : fitImage coef nrow order B t i ≠ 0 := right_ne_zero_of_mul h2
  have h6 : g i * (v * (fitImage coef nrow order B t i * mean2 nrow ncol
      (filter2d nrow ncol pad win fun t i => g i * fitImage coef nrow order B t i))) = g i * (B t i *
        (filter2d nrow ncol pad win (fun t i => g i * fitImage coef nrow order B t i) t i *
          mean2 nrow ncol fun t i => g i * fitImage coef nrow order B t i)) := by
    linear_combination h3
  have h7 := mul_left_cancel₀ h4 h6
  field_simp
  linear_combination h7

/-! ### Constant sinograms -/

/-- What filtering with window `w` makes of a row of ones. -/
def onesFiltered (L : Nat) (w : Nat → ℝ) (n : Nat) : ℂ :=
  idft L (fun k => dft L (fun j => (-1) ^ j) k * (w k : ℂ)) n * (-1) ^ n

theorem filter2d_const {nrow : Nat} (hn : 0 < nrow) (ncol pad : Nat) (sigma : ℝ × ℝ) (v : ℝ) (t i : Nat) :
    filter2d nrow ncol pad (window2d (nrow + 2 * pad) (ncol + 2 * pad) sigma) (fun _ _ => v) t i =
      v * (onesFiltered (nrow + 2 * pad) (gaussWindow (nrow + 2 * pad) sigma.2) (t + pad) *
        onesFiltered (ncol + 2 * pad) (gaussWindow (ncol + 2 * pad) sigma.1) (i + pad)).re := by
  have hwin : ∀ u w : Nat, ((window2d (nrow + 2 * pad) (ncol + 2 * pad) sigma u w : ℝ) : ℂ) =
      (gaussWindow (nrow + 2 * pad) sigma.2 u : ℂ) * (gaussWindow (ncol + 2 * pad) sigma.1 w : ℂ) := by
    intro u w
    rw [← Complex.ofReal_mul]
    unfold window2d gaussWindow
    rw [← Real.exp_add]
    congr 2
    simp only [sq, mul_assoc]
    ring_nf
  have hspec : ∀ u w : Nat, fft2 (nrow + 2 * pad) (ncol + 2 * pad)
      (fun r c => ((v * matSign r c : ℝ) : ℂ)) u w =
      (v : ℂ) * (dft (nrow + 2 * pad) (fun j => (-1) ^ j) u * dft (ncol + 2 * pad) (fun j => (-1) ^ j) w) := by
    intro u w
    unfold fft2 dft
    rw [Finset.sum_mul_sum, Finset.mul_sum]
    refine Finset.sum_congr rfl fun r _ => ?_
    rw [Finset.mul_sum]
    refine Finset.sum_congr rfl fun c _ => ?_
    unfold matSign
    push_cast
    rw [pow_add]
    ring
  unfold filter2d
  simp only [fitPad_const hn, hspec, hwin]
  rw [← Complex.re_ofReal_mul]
  congr 1
  unfold onesFiltered idft ifft2 matSign
  push_cast
  rw [pow_add]
  have e : ∑ u ∈ Finset.range (nrow + 2 * pad), ∑ w ∈ Finset.range (ncol + 2 * pad),
      (v : ℂ) * (dft (nrow + 2 * pad) (fun j => (-1) ^ j) u * dft (ncol + 2 * pad) (fun j => (-1) ^ j) w) *
        ((gaussWindow (nrow + 2 * pad) sigma.2 u : ℂ) * (gaussWindow (ncol + 2 * pad) sigma.1 w : ℂ)) *
        (rot (nrow + 2 * pad) (((t : Int) + pad) * u) * rot (ncol + 2 * pad) (((i : Int) + pad) * w)) =
      (v : ℂ) * ((∑ u ∈ Finset.range (nrow + 2 * pad), dft (nrow + 2 * pad) (fun j => (-1) ^ j) u *
          (gaussWindow (nrow + 2 * pad) sigma.2 u : ℂ) * rot (nrow + 2 * pad) (((t : Int) + pad) * u)) *
        ∑ w ∈ Finset.range (ncol + 2 * pad), dft (ncol + 2 * pad) (fun j => (-1) ^ j) w *
          (gaussWindow (ncol + 2 * pad) sigma.1 w : ℂ) * rot (ncol + 2 * pad) (((i : Int) + pad) * w)) := by
    rw [Finset.sum_mul_sum, Finset.mul_sum]
    refine Finset.sum_congr rfl fun u _ => ?_
    rw [Finset.mul_sum]
    refine Finset.sum_congr rfl fun w _ => ?_
    ring
  rw [e]
  simp only [div_eq_mul_inv, mul_inv]
  ring

theorem onesFiltered_even {L : Nat} (hL : 0 < L) (he : Even L) (sigma : ℝ) (n : Nat) :
    onesFiltered L (gaussWindow L sigma) n = (lowGain sigma : ℂ) := by
  obtain ⟨h, rfl⟩ := he
  have hL2 : h + h = 2 * h := by ring
  have hh : 0 < h := by omega
  have hg : gaussWindow (2 * h) sigma h = lowGain sigma := by
    have := gaussWindow_middle (n := 2 * h) (pad := 0) ⟨h, by ring⟩ sigma
    simpa using this
  rw [hL2]
  unfold onesFiltered idft
  have e : ∀ k ∈ Finset.range (2 * h), dft (2 * h) (fun j => (-1) ^ j) k * (gaussWindow (2 * h) sigma k : ℂ) *
      rot (2 * h) ((n : Int) * k) =
      if k = h then ((2 * h : Nat) : ℂ) * (lowGain sigma : ℂ) * (-1) ^ n else 0 := by
    intro k hk
    have := dft_sign hh 1 (Finset.mem_range.1 hk)
    simp only [one_mul] at this
    rw [this]
    split_ifs with hkh
    · subst hkh
      rw [rot_half hh, hg]
    · ring
  rw [Finset.sum_congr rfl e, Finset.sum_ite_eq', if_pos (Finset.mem_range.2 (by omega))]
  have hne : ((2 * h : Nat) : ℂ) ≠ 0 := by exact_mod_cast (show 2 * h ≠ 0 by omega)
  have hsq : ((-1 : ℂ) ^ n) * (-1) ^ n = 1 := by rw [← mul_pow]; norm_num
  calc ((2 * h : Nat) : ℂ) * (lowGain sigma : ℂ) * (-1) ^ n / ((2 * h : Nat) : ℂ) * (-1) ^ n
      = (lowGain sigma : ℂ) * ((-1) ^ n * (-1) ^ n) := by field_simp
    _ = _ := by rw [hsq, mul_one]

theorem lowGain_pos (sigma : ℝ) : 0 < lowGain sigma := Real.exp_pos _

theorem mean2_const {nrow ncol : Nat} (hn : 0 < nrow) (hc : 0 < ncol) (v : ℝ) :
    mean2 nrow ncol (fun _ _ => v) = v := by
  have h1 : (nrow : ℝ) ≠ 0 := by exact_mod_cast hn.ne'
  have h2 : (ncol : ℝ) ≠ 0 := by exact_mod_cast hc.ne'
  unfold mean2
  simp only [Finset.sum_const, Finset.card_range, nsmul_eq_mul]
  field_simp

theorem fitImage_const {coef : Nat → Nat → Nat → ℝ}
    (hcoef : ∀ window order, order < window → ∑ j ∈ Finset.range window, coef window order j = 1)
    {nrow : Nat} (hn : 0 < nrow) (order : Nat) (v : ℝ) :
    fitImage coef nrow order (fun _ _ => v) = fun _ _ => v := by
  funext t i
  exact savgol_const coef (hcoef _ _ (fit_arguments_valid hn order).2.2.1) v t

/-- **C92** A constant sinogram with an even number of angles and columns is returned unchanged
(polynomial fits reproduce constants). -/
theorem rs_fit_constant {coef : Nat → Nat → Nat → ℝ}
    (hcoef : ∀ window order, order < window → ∑ j ∈ Finset.range window, coef window order j = 1)
    {nrow ncol : Nat} (hn : 0 < nrow) (hc : 0 < ncol) (hen : Even nrow) (hec : Even ncol) (pad order : Nat)
    (sigma : ℝ × ℝ) {v : ℝ} (hv : v ≠ 0) (t i : Nat) :
    rsFit coef nrow ncol pad order (window2d (nrow + 2 * pad) (ncol + 2 * pad) sigma) (fun _ _ => v) t i
      = some v := by
  have hs : filter2d nrow ncol pad (window2d (nrow + 2 * pad) (ncol + 2 * pad) sigma) (fun _ _ => v) =
      fun _ _ => v * (lowGain sigma.2 * lowGain sigma.1) := by
    funext t i
    rw [filter2d_const hn, onesFiltered_even (by omega) (hen.add (even_two_mul _)),
      onesFiltered_even (by omega) (hec.add (even_two_mul _)), ← Complex.ofReal_mul, Complex.ofReal_re]
  have hg : lowGain sigma.2 * lowGain sigma.1 ≠ 0 := (mul_pos (lowGain_pos _) (lowGain_pos _)).ne'
  rw [rs_fit_value, fitImage_const hcoef hn, hs, mean2_const hn hc, mean2_const hn hc]
  exact ⟨mul_ne_zero hv hg, hv, by ring⟩

/-- **C92** (what is false) A blank sinogram becomes undefined everywhere. -/
theorem rs_fit_zero_undefined (coef : Nat → Nat → Nat → ℝ) (nrow ncol pad order : Nat) (win : Nat → Nat → ℝ)
    (t i : Nat) : rsFit coef nrow ncol pad order win (fun _ _ => 0) t i = none := by
  rcases h : rsFit coef nrow ncol pad order win (fun _ _ => 0) t i with _ | v
  · rfl
  · obtain ⟨-, h2, -⟩ := (rs_fit_value ..).1 h
    refine absurd ?_ h2
    simp [fitImage, savgol]

/-- A row of three ones after the filter; `w` is the window beside its middle. -/
theorem onesFiltered_three (w : ℝ) (win : Nat → ℝ) (h0 : win 0 = w) (h1 : win 1 = 1) (h2 : win 2 = w) :
    (onesFiltered 3 win 0).re = (1 + 2 * w) / 3 ∧ (onesFiltered 3 win 1).re = (2 + w) / 3 ∧
      (onesFiltered 3 win 2).re = (1 + 2 * w) / 3 := by
  have c1 : Real.cos (2 * Real.pi * 1 / 3) = -1 / 2 := by
    rw [show 2 * Real.pi * 1 / 3 = Real.pi - Real.pi / 3 by ring, Real.cos_pi_sub, Real.cos_pi_div_three]
    norm_num
  have c2 : Real.cos (2 * Real.pi * 2 / 3) = -1 / 2 := by
    rw [show 2 * Real.pi * 2 / 3 = Real.pi / 3 + Real.pi by ring, Real.cos_add_pi, Real.cos_pi_div_three]
    norm_num
  have c4 : Real.cos (2 * Real.pi * 4 / 3) = -1 / 2 := by
    rw [show 2 * Real.pi * 4 / 3 = 2 * Real.pi * 1 / 3 + 2 * Real.pi by ring, Real.cos_add_two_pi, c1]
  obtain ⟨c, hc⟩ : ∃ c : ℝ → ℝ, ∀ x, Real.cos (2 * Real.pi * x / 3) = c x := ⟨_, fun _ => rfl⟩
  have hneg : ∀ x, c (-x) = c x := fun x => by
    rw [← hc, ← hc, show 2 * Real.pi * -x / 3 = -(2 * Real.pi * x / 3) by ring, Real.cos_neg]
  rw [hc] at c1 c2 c4
  have c0 : c 0 = 1 := by rw [← hc]; simp
  have key : ∀ n : Nat, (onesFiltered 3 win n).re = (∑ j ∈ Finset.range 3, (-1) ^ (n + j) *
      (∑ k ∈ Finset.range 3, win k * c (((n : ℝ) - j) * k)) / 3) := by
    intro n
    have h := smooth_conv 3 0 win (fun _ => 1) n
    have e : ∀ j k : Nat, Real.cos (2 * Real.pi * (((n + 0 : Nat) : ℝ) - j) * k / (3 + 2 * 0 : Nat)) =
        c (((n : ℝ) - j) * k) := fun j k => by
      rw [← hc]
      congr 1
      push_cast
      ring
    simp only [e] at h
    have h3 : ((3 + 2 * 0 : Nat) : ℝ) = 3 := by norm_num
    rw [h3] at h
    simp only [mul_zero, add_zero, one_mul] at h
    rw [← h]
    unfold smoothColumn onesFiltered listSign
    simp
  refine ⟨?_, ?_, ?_⟩ <;>
  · rw [key]
    simp only [Finset.sum_range_succ, Finset.sum_range_zero, h0, h1, h2]
    norm_num [hneg, c0, c1, c2, c4]
    ring

/-- **C92** (what is false) A constant sinogram of three columns is changed: the middle column comes
out too large.  The alternating signs of an odd width do not centre the window. -/
theorem rs_fit_constant_odd {coef : Nat → Nat → Nat → ℝ}
    (hcoef : ∀ window order, order < window → ∑ j ∈ Finset.range window, coef window order j = 1)
    (order : Nat) {sigma : ℝ × ℝ} (hs : sigma.1 ≠ 0) {v : ℝ} (hv : v ≠ 0) (t : Nat) :
    ∃ q, rsFitSlice coef 2 3 order sigma (fun _ _ => some v) t 1 = some q ∧ q ≠ v ∧ 1 < q / v := by
  set w := Real.exp (-(1 / (2 * sigma.1 ^ 2))) with hw
  have hw1 : w < 1 := by
    rw [hw, Real.exp_lt_one_iff]
    have : 0 < 1 / (2 * sigma.1 ^ 2) := by positivity
    linarith
  have hw0 : 0 < w := Real.exp_pos _
  have g0 : gaussWindow 3 sigma.1 0 = w := by
    unfold gaussWindow; rw [hw]; norm_num
  have g1 : gaussWindow 3 sigma.1 1 = 1 := by
    unfold gaussWindow; norm_num
  have g2 : gaussWindow 3 sigma.1 2 = w := by
    unfold gaussWindow; rw [hw]; norm_num
  obtain ⟨o0, o1, o2⟩ := onesFiltered_three w _ g0 g1 g2
  have hf : ∀ t i, filter2d 2 3 0 (window2d 2 3 sigma) (fun _ _ => v) t i =
      v * (lowGain sigma.2 * (onesFiltered 3 (gaussWindow 3 sigma.1) i).re) := by
    intro t i
    have := filter2d_const (nrow := 2) (by norm_num) 3 0 sigma v t i
    simp only [mul_zero, add_zero] at this
    rw [this, onesFiltered_even (by norm_num) ⟨1, rfl⟩, Complex.re_ofReal_mul]
  have hg := lowGain_pos sigma.2
  have hm : mean2 2 3 (filter2d 2 3 0 (window2d 2 3 sigma) fun _ _ => v) =
      v * lowGain sigma.2 * ((4 + 5 * w) / 9) := by
    unfold mean2
    simp only [hf, Finset.sum_range_succ, Finset.sum_range_zero, o0, o1, o2]
    push_cast
    ring
  refine ⟨v * (3 * (2 + w) / (4 + 5 * w)), ?_, ?_, ?_⟩
  · have e : rsFitSlice coef 2 3 order sigma (fun _ _ => some v) =
        rsFit coef 2 3 0 order (window2d 2 3 sigma) (fun _ _ => v) := by
      unfold rsFitSlice
      have hp : filterPad 2 = 0 := by decide
      simp [hp]
    rw [e, rs_fit_value, fitImage_const hcoef (by norm_num), hm, hf, o1,
      mean2_const (by norm_num) (by norm_num)]
    refine ⟨?_, hv, ?_⟩
    · exact mul_ne_zero (mul_ne_zero hv hg.ne') (by positivity)
    · field_simp
      norm_num
  · intro h
    have h2 : 3 * (2 + w) / (4 + 5 * w) = 1 := mul_left_cancel₀ hv (by rw [h, mul_one])
    rw [div_eq_one_iff_eq (by positivity)] at h2
    linarith
  · rw [mul_div_cancel_left₀ _ hv, one_lt_div (by positivity)]
    linarith

/-- The average over the window has coefficients of sum 1, and the constant sinogram 5 is met. -/
example : rsFit (fun window _ _ => 1 / window) 4 4 0 3 (window2d 4 4 (5, 20)) (fun _ _ => 5) 1 2 = some 5 :=
  rs_fit_constant (coef := fun window _ _ => 1 / window) (by
    intro window order h
    have : (window : ℝ) ≠ 0 := by exact_mod_cast (show window ≠ 0 by omega)
    rw [Finset.sum_const, Finset.card_range, nsmul_eq_mul]
    field_simp) (by norm_num) (by norm_num) ⟨2, rfl⟩ ⟨2, rfl⟩ 0 3 (5, 20) (by norm_num) 1 2

/-- **C92** For every number of cores, chunk size and schedule, every slice of the result is
`_rs_fit` of that slice. -/
theorem rs_fit_distributed (coef : Nat → Nat → Nat → ℝ) (cpu : Nat) (debug : Bool) (n nrow ncol order : Nat)
    (sigma : ℝ × ℝ) (ncore nchunk : Option Nat) (m m' : Mproc.Cell → Nat → Nat → Option ℝ) (res : Mproc.Buf)
    (h : Mproc.DistributeJobs cpu debug
      ⟨n, [0], none, fun _ => false, removeStripeBasedFitting coef nrow ncol order sigma, ncore, nchunk,
        fun _ => false⟩ (fun _ => false) m m' res) :
    ∀ s < n, m' (res, s) = rsFitSlice coef nrow ncol order sigma (m (.caller 0, s)) := by
  intro s hs
  have hf : Mproc.InPlaceSlicewise (removeStripeBasedFitting coef nrow ncol order sigma)
      (fun row => row.map (rsFitSlice coef nrow ncol order sigma)) :=
    ⟨fun _ => rfl, fun _ => rfl, fun _ => List.length_map ..⟩
  have key := Mproc.inplace_result_partial hf (by simp) (by simp) rfl h s hs
  simpa using key

end

end Tomopy.Stripe
