import Verif.Phase.Props
import Mathlib.Algebra.BigOperators.Intervals
import Mathlib.Tactic.Positivity
import Mathlib.Analysis.SpecialFunctions.Trigonometric.Basic

/-! C189: phase retrieval of turned and of mirrored projections. -/

set_option linter.unusedSectionVars false

namespace Tomopy.Phase

noncomputable section

/-! ### Specification -/

/-- A picture of `h` rows and `w` columns turned by 180 degrees. -/
def turned (h w : Nat) (f : Frame) : Frame := fun r c => f (h - 1 - r) (w - 1 - c)

/-- A picture of `w` columns mirrored left to right. -/
def mirrored (w : Nat) (f : Frame) : Frame := fun r c => f r (w - 1 - c)

/-- A dark picture with one bright pixel. -/
def bright (v : ℝ) (r₀ c₀ : Nat) : Frame := fun r c => if r = r₀ ∧ c = c₀ then v else 0

/-! ### The response of the filter to one pixel -/

/-- What a pixel of value 1 contributes `a` rows and `b` columns further on. -/
def ker (h w : Nat) (g : Frame) (a b : Int) : ℝ :=
  (∑ u ∈ Finset.range h, ∑ v ∈ Finset.range w,
    g u v * Real.cos (2 * Real.pi * (a * u) / h + 2 * Real.pi * (b * v) / w)) / (h * w)

theorem rot_add (n : Nat) (j k : Int) : rot n (j + k) = rot n j * rot n k := by
  unfold rot
  rw [← Complex.exp_add]
  congr 1
  push_cast
  ring

theorem rot_re (h w : Nat) (j k : Int) : (rot h j * rot w k).re
    = Real.cos (2 * Real.pi * j / h + 2 * Real.pi * k / w) := by
  unfold rot
  rw [← Complex.exp_add]
  have : (2 * Real.pi * Complex.I * j / h + 2 * Real.pi * Complex.I * k / w : ℂ)
      = ((2 * Real.pi * j / h + 2 * Real.pi * k / w : ℝ) : ℂ) * Complex.I := by
    push_cast
    ring
  rw [this, Complex.exp_ofReal_mul_I_re]

/-- The filter adds up the responses to all pixels. -/
theorem filter_ker (h w : Nat) (g f : Frame) (r c : Nat) :
    applyFilter h w g f r c = ∑ r' ∈ Finset.range h, ∑ c' ∈ Finset.range w,
      f r' c' * ker h w g (r - r') (c - c') := by
  unfold applyFilter ifft2 fft2
  have e : ∀ u v : Nat, (∑ r' ∈ Finset.range h, ∑ c' ∈ Finset.range w,
      ((f r' c' : ℝ) : ℂ) * (rot h (-(r' * u)) * rot w (-(c' * v)))) * ((g u v : ℝ) : ℂ)
        * (rot h (r * u) * rot w (c * v))
      = ∑ r' ∈ Finset.range h, ∑ c' ∈ Finset.range w,
        ((f r' c' * g u v : ℝ) : ℂ) * (rot h ((r - r') * u) * rot w ((c - c') * v)) := by
    intro u v
    simp only [Finset.sum_mul]
    refine Finset.sum_congr rfl fun r' _ => Finset.sum_congr rfl fun c' _ => ?_
    rw [show ((r : Int) - r') * u = r * u + -(r' * u) by ring,
      show ((c : Int) - c') * v = c * v + -(c' * v) by ring, rot_add, rot_add]
    push_cast
    ring
  simp only [e]
  have hre : ∀ z : ℂ, (z / ((h : ℂ) * w)).re = z.re / (h * w) := by
    intro z
    have : ((h : ℂ) * w) = (((h : ℝ) * w : ℝ) : ℂ) := by push_cast; ring
    rw [this, Complex.div_ofReal_re]
  rw [hre]
  simp only [Complex.re_sum, Complex.re_ofReal_mul, rot_re]
  unfold ker
  simp only [mul_div_assoc', ← Finset.sum_div]
  congr 1
  simp only [Finset.mul_sum]
  calc ∑ u ∈ Finset.range h, ∑ v ∈ Finset.range w, ∑ r' ∈ Finset.range h, ∑ c' ∈ Finset.range w, _
      = ∑ u ∈ Finset.range h, ∑ r' ∈ Finset.range h, ∑ v ∈ Finset.range w,
          ∑ c' ∈ Finset.range w, _ := Finset.sum_congr rfl fun u _ => Finset.sum_comm
    _ = ∑ r' ∈ Finset.range h, ∑ u ∈ Finset.range h, ∑ v ∈ Finset.range w,
          ∑ c' ∈ Finset.range w, _ := Finset.sum_comm
    _ = ∑ r' ∈ Finset.range h, ∑ u ∈ Finset.range h, ∑ c' ∈ Finset.range w,
          ∑ v ∈ Finset.range w, _ :=
        Finset.sum_congr rfl fun r' _ => Finset.sum_congr rfl fun u _ => Finset.sum_comm
    _ = ∑ r' ∈ Finset.range h, ∑ c' ∈ Finset.range w, ∑ u ∈ Finset.range h,
          ∑ v ∈ Finset.range w, _ := Finset.sum_congr rfl fun r' _ => Finset.sum_comm
    _ = _ := by
      refine Finset.sum_congr rfl fun r' _ => Finset.sum_congr rfl fun c' _ =>
        Finset.sum_congr rfl fun u _ => Finset.sum_congr rfl fun v _ => ?_
      push_cast
      ring

theorem ker_neg (h w : Nat) (g : Frame) (a b : Int) : ker h w g (-a) (-b) = ker h w g a b := by
  unfold ker
  congr 1
  refine Finset.sum_congr rfl fun u _ => Finset.sum_congr rfl fun v _ => ?_
  rw [← Real.cos_neg]
  congr 2
  push_cast
  ring

/-! ### Turning by 180 degrees -/

/-- **C189** (turning).  Whatever the gains: a turned frame is filtered to the turned result. -/
theorem filter_turned (h w : Nat) (g f : Frame) (r c : Nat) (hr : r < h) (hc : c < w) :
    applyFilter h w g (turned h w f) r c = turned h w (applyFilter h w g f) r c := by
  unfold turned
  rw [filter_ker, filter_ker,
    ← Finset.sum_range_reflect (fun r' => ∑ c' ∈ Finset.range w,
      f r' c' * ker h w g (((h - 1 - r : Nat) : Int) - r') (((w - 1 - c : Nat) : Int) - c')) h]
  refine Finset.sum_congr rfl fun r' hr' => ?_
  rw [← Finset.sum_range_reflect (fun c' =>
      f (h - 1 - r') c' * ker h w g (((h - 1 - r : Nat) : Int) - (h - 1 - r' : Nat))
        (((w - 1 - c : Nat) : Int) - c')) w]
  refine Finset.sum_congr rfl fun c' hc' => ?_
  have h1 := Finset.mem_range.1 hr'
  have h2 := Finset.mem_range.1 hc'
  rw [← ker_neg]
  congr 2 <;> omega

theorem nearest_reflect (p n i : Nat) (hn : 0 < n) :
    nearest p n (n + 2 * p - 1 - i) = n - 1 - nearest p n i := by
  unfold nearest
  omega

/-! ### The response is not symmetric -/

/-- Square of the frequency that the code assigns to element `u` of the transform. -/
def freq2 (pixel : ℝ) (n u : Nat) : ℝ := rcoord pixel n (shiftSrc n u) ^ 2

/-- The increment of the sine over step `u` of a half turn in `k` steps. -/
def stepSin (k u : Nat) : ℝ :=
  Real.sin (Real.pi * (u + 1 : Nat) / k) - Real.sin (Real.pi * u / k)

theorem stepSin_reflect (k u : Nat) (hu : u < k) : stepSin k (k - 1 - u) = - stepSin k u := by
  unfold stepSin
  have hk : (k : ℝ) ≠ 0 := by
    have : k ≠ 0 := by omega
    exact_mod_cast this
  have e1 : ((k - 1 - u + 1 : Nat) : ℝ) = k - u := by
    rw [show k - 1 - u + 1 = k - u by omega, Nat.cast_sub (by omega)]
  have e2 : ((k - 1 - u : Nat) : ℝ) = k - ((u + 1 : Nat) : ℝ) := by
    rw [show k - 1 - u = k - (u + 1) by omega, Nat.cast_sub (by omega)]
  have e3 : Real.pi * ((k : ℝ) - u) / k = Real.pi - Real.pi * u / k := by field_simp
  have e4 : Real.pi * ((k : ℝ) - ((u + 1 : Nat) : ℝ)) / k
      = Real.pi - Real.pi * (u + 1 : Nat) / k := by field_simp
  rw [e1, e2, e3, e4, Real.sin_pi_sub, Real.sin_pi_sub]
  ring

theorem stepSin_pos (k u : Nat) (hu : u < k - 1 - u) : 0 < stepSin k u := by
  unfold stepSin
  have hk : (0 : ℝ) < k := by
    have : 0 < k := by omega
    exact_mod_cast this
  have hp := Real.pi_pos
  have h2 : 2 * ((u + 1 : Nat) : ℝ) ≤ k := by
    have : 2 * (u + 1) ≤ k := by omega
    exact_mod_cast this
  refine sub_pos.2 (Real.sin_lt_sin_of_lt_of_le_pi_div_two ?_ ?_ ?_)
  · have : 0 ≤ Real.pi * u / k := by positivity
    linarith
  · rw [div_le_div_iff₀ hk (by norm_num)]
    nlinarith
  · have : ((u + 1 : Nat) : ℝ) = u + 1 := by push_cast; ring
    rw [this]
    gcongr
    linarith

/-- The frequency of element `u` of the first half. -/
theorem freq2_low (pixel : ℝ) (k u : Nat) (hu : u < k) :
    freq2 pixel (2 * k) u
      = ((2 * u + 1) * (1 / 2 / ((((2 * k : Nat) : ℝ) - 1) * pixel))) ^ 2 := by
  unfold freq2 rcoord shiftSrc
  rw [Nat.mod_eq_of_lt (by omega), show u + (2 * k - 2 * k / 2) = u + k by omega]
  congr 1
  push_cast
  ring

theorem freq2_high (pixel : ℝ) (k u : Nat) (hu : u < k) :
    freq2 pixel (2 * k) (2 * k - 1 - u) = freq2 pixel (2 * k) u := by
  rw [freq2_low pixel k u hu]
  unfold freq2 rcoord shiftSrc
  have e : 2 * k - 1 - u + (2 * k - 2 * k / 2) = (k - 1 - u) + 2 * k := by omega
  rw [e, Nat.add_mod_right, Nat.mod_eq_of_lt (by omega)]
  have e2 : ((k - 1 - u : Nat) : ℝ) = k - 1 - u := by
    rw [show k - 1 - u = k - (1 + u) by omega, Nat.cast_sub (by omega)]
    push_cast
    ring
  rw [e2, ← neg_sq]
  congr 1
  push_cast
  ring

theorem freq2_lt (pixel : ℝ) (hp : 0 < pixel) (k u v : Nat) (hv : v < k) (huv : u < v) :
    freq2 pixel (2 * k) u < freq2 pixel (2 * k) v := by
  rw [freq2_low pixel k u (by omega), freq2_low pixel k v hv]
  have h1 : (1 : ℝ) < ((2 * k : Nat) : ℝ) := by
    have : 1 < 2 * k := by omega
    exact_mod_cast this
  have h2 : 0 < 1 / 2 / ((((2 * k : Nat) : ℝ) - 1) * pixel) := by
    have : 0 < ((2 * k : Nat) : ℝ) - 1 := by linarith
    positivity
  have h3 : (u : ℝ) < v := by exact_mod_cast huv
  gcongr

theorem sin_reflect (k u : Nat) (hu : u < k) :
    Real.sin (2 * Real.pi * u / (2 * k : Nat))
      + Real.sin (2 * Real.pi * (2 * k - 1 - u : Nat) / (2 * k : Nat)) = - stepSin k u := by
  unfold stepSin
  have hk : (k : ℝ) ≠ 0 := by
    have : k ≠ 0 := by omega
    exact_mod_cast this
  have e1 : 2 * Real.pi * u / (2 * k : Nat) = Real.pi * u / k := by
    push_cast
    field_simp
  have e2 : ((2 * k - 1 - u : Nat) : ℝ) = 2 * k - (u + 1 : Nat) := by
    rw [show 2 * k - 1 - u = 2 * k - (u + 1) by omega, Nat.cast_sub (by omega)]
    push_cast
    ring
  have e3 : 2 * Real.pi * (2 * k - 1 - u : Nat) / (2 * k : Nat)
      = 2 * Real.pi - Real.pi * (u + 1 : Nat) / k := by
    rw [e2]
    push_cast
    field_simp
  rw [e1, e3, Real.sin_two_pi_sub]
  ring

/-- A sum over frequencies, weighted with the sine, in terms of the differences between low and
high frequencies. -/
theorem sum_sin (pixel : ℝ) (k : Nat) (φ : ℝ → ℝ) :
    ∑ u ∈ Finset.range (2 * k), φ (freq2 pixel (2 * k) u) * Real.sin (2 * Real.pi * u / (2 * k : Nat))
      = -(1 / 2) * ∑ u ∈ Finset.range k,
        (φ (freq2 pixel (2 * k) u) - φ (freq2 pixel (2 * k) (k - 1 - u))) * stepSin k u := by
  have h1 : ∑ u ∈ Finset.range (2 * k),
        φ (freq2 pixel (2 * k) u) * Real.sin (2 * Real.pi * u / (2 * k : Nat))
      = - ∑ u ∈ Finset.range k, φ (freq2 pixel (2 * k) u) * stepSin k u := by
    have e : Finset.range (2 * k) = Finset.range (k + k) := by rw [two_mul]
    rw [e, Finset.sum_range_add, ← Finset.sum_range_reflect (fun x =>
      φ (freq2 pixel (2 * k) (k + x)) * Real.sin (2 * Real.pi * (k + x : Nat) / (2 * k : Nat))) k,
      ← Finset.sum_add_distrib, ← Finset.sum_neg_distrib]
    refine Finset.sum_congr rfl fun u hu => ?_
    have hu := Finset.mem_range.1 hu
    rw [show k + (k - 1 - u) = 2 * k - 1 - u by omega, freq2_high pixel k u hu, ← mul_add,
      sin_reflect k u hu]
    ring
  have h2 : ∑ u ∈ Finset.range k, φ (freq2 pixel (2 * k) (k - 1 - u)) * stepSin k u
      = - ∑ u ∈ Finset.range k, φ (freq2 pixel (2 * k) u) * stepSin k u := by
    rw [← Finset.sum_range_reflect (fun u => φ (freq2 pixel (2 * k) u) * stepSin k u) k,
      ← Finset.sum_neg_distrib]
    refine Finset.sum_congr rfl fun u hu => ?_
    rw [stepSin_reflect k u (Finset.mem_range.1 hu)]
    ring
  rw [h1]
  simp only [sub_mul, Finset.sum_sub_distrib]
  rw [h2]
  ring

/-- The second difference of `1 / x` has the sign of the product of the two steps. -/
theorem second_difference (p d e : ℝ) (h0 : 0 < p) (h1 : 0 < p + d) (h2 : 0 < p + e)
    (h3 : 0 < p + d + e) :
    ∃ q > 0, 1 / p - 1 / (p + d) - (1 / (p + e) - 1 / (p + d + e)) = q * (d * e) := by
  refine ⟨(p + (p + d + e)) / (p * (p + d) * (p + e) * (p + d + e)), by positivity, ?_⟩
  field_simp
  ring

/-- The step of the frequencies and the step of the sine have the same sign. -/
theorem step_sign (pixel : ℝ) (hp : 0 < pixel) (k u : Nat) (hu : u < k) :
    0 ≤ (freq2 pixel (2 * k) (k - 1 - u) - freq2 pixel (2 * k) u) * stepSin k u ∧
    (u < k - 1 - u →
      0 < (freq2 pixel (2 * k) (k - 1 - u) - freq2 pixel (2 * k) u) * stepSin k u) := by
  have hpos : u < k - 1 - u →
      0 < (freq2 pixel (2 * k) (k - 1 - u) - freq2 pixel (2 * k) u) * stepSin k u := fun h =>
    mul_pos (sub_pos.2 (freq2_lt pixel hp k u _ (by omega) h)) (stepSin_pos k u h)
  refine ⟨?_, hpos⟩
  rcases lt_trichotomy u (k - 1 - u) with h | h | h
  · exact (hpos h).le
  · rw [← h]; simp
  · have e : k - 1 - (k - 1 - u) = u := by omega
    have h1 := freq2_lt pixel hp k (k - 1 - u) u hu h
    have h2 := stepSin_pos k (k - 1 - u) (by omega)
    rw [stepSin_reflect k u hu] at h2
    nlinarith

/-- The gains of the filter are not symmetric: the odd part of the response is positive. -/
theorem sin_sin_pos (pixel dist energy alpha : ℝ) (hp : 0 < pixel) (hd : 0 < dist)
    (he : 0 < energy) (ha : 0 < alpha) (k l : Nat) (hk : 2 ≤ k) (hl : 2 ≤ l) :
    0 < ∑ u ∈ Finset.range (2 * k), ∑ v ∈ Finset.range (2 * l),
      phaseFilter pixel dist energy alpha (2 * k) (2 * l) u v
        * (Real.sin (2 * Real.pi * u / (2 * k : Nat)) * Real.sin (2 * Real.pi * v / (2 * l : Nat))) := by
  set F : ℝ → ℝ := paganin energy dist alpha with hF
  have e1 : ∀ u, ∑ v ∈ Finset.range (2 * l),
      phaseFilter pixel dist energy alpha (2 * k) (2 * l) u v
        * (Real.sin (2 * Real.pi * u / (2 * k : Nat)) * Real.sin (2 * Real.pi * v / (2 * l : Nat)))
      = (fun x => -(1 / 2) * ∑ v ∈ Finset.range l,
        (F (x + freq2 pixel (2 * l) v) - F (x + freq2 pixel (2 * l) (l - 1 - v))) * stepSin l v)
          (freq2 pixel (2 * k) u) * Real.sin (2 * Real.pi * u / (2 * k : Nat)) := by
    intro u
    have := sum_sin pixel l (fun y => F (freq2 pixel (2 * k) u + y))
    dsimp only
    rw [← this, Finset.sum_mul]
    refine Finset.sum_congr rfl fun v _ => ?_
    rw [hF]
    unfold phaseFilter w2 freq2
    ring
  have e2 : ∀ u v, ∃ q > 0,
      F (freq2 pixel (2 * k) u + freq2 pixel (2 * l) v)
        - F (freq2 pixel (2 * k) (k - 1 - u) + freq2 pixel (2 * l) v)
        - (F (freq2 pixel (2 * k) u + freq2 pixel (2 * l) (l - 1 - v))
        - F (freq2 pixel (2 * k) (k - 1 - u) + freq2 pixel (2 * l) (l - 1 - v)))
      = q * ((freq2 pixel (2 * k) (k - 1 - u) - freq2 pixel (2 * k) u)
        * (freq2 pixel (2 * l) (l - 1 - v) - freq2 pixel (2 * l) v)) := by
    intro u v
    have hw := wavelength_pos energy he
    have hP : (0 : ℝ) < PI := by unfold PI; norm_num
    have hn : ∀ n i, 0 ≤ freq2 pixel n i := fun n i => sq_nonneg _
    have hx := hn (2 * k) u
    have hx' := hn (2 * k) (k - 1 - u)
    have hy := hn (2 * l) v
    have hy' := hn (2 * l) (l - 1 - v)
    obtain ⟨κ, hκ, hFκ⟩ : ∃ κ > 0, ∀ z, F z = 1 / (κ * z + alpha) := by
      refine ⟨wavelength energy * dist / (4 * PI), by positivity, fun z => ?_⟩
      rw [hF]
      unfold paganin
      rw [mul_div_right_comm]
    simp only [hFκ]
    clear hFκ hF e1 hn
    generalize freq2 pixel (2 * k) u = x at *
    generalize freq2 pixel (2 * k) (k - 1 - u) = x' at *
    generalize freq2 pixel (2 * l) v = y at *
    generalize freq2 pixel (2 * l) (l - 1 - v) = y' at *
    have a1 : κ * (x' + y) + alpha = (κ * (x + y) + alpha) + κ * (x' - x) := by ring
    have a2 : κ * (x + y') + alpha = (κ * (x + y) + alpha) + κ * (y' - y) := by ring
    have a3 : κ * (x' + y') + alpha
        = (κ * (x + y) + alpha) + κ * (x' - x) + κ * (y' - y) := by ring
    obtain ⟨q, hq, h⟩ := second_difference (κ * (x + y) + alpha) (κ * (x' - x)) (κ * (y' - y))
      (by positivity) (by rw [← a1]; positivity) (by rw [← a2]; positivity)
      (by rw [← a3]; positivity)
    refine ⟨q * κ ^ 2, by positivity, ?_⟩
    rw [a1, a2, a3, h]
    ring
  set φ : ℝ → ℝ := fun x => -(1 / 2) * ∑ v ∈ Finset.range l,
        (F (x + freq2 pixel (2 * l) v) - F (x + freq2 pixel (2 * l) (l - 1 - v))) * stepSin l v
    with hφ
  rw [Finset.sum_congr rfl fun u _ => e1 u, sum_sin pixel k φ]
  have e3 : -(1 / 2) * ∑ u ∈ Finset.range k,
        (φ (freq2 pixel (2 * k) u) - φ (freq2 pixel (2 * k) (k - 1 - u))) * stepSin k u
      = 1 / 4 * ∑ u ∈ Finset.range k, ∑ v ∈ Finset.range l,
        (F (freq2 pixel (2 * k) u + freq2 pixel (2 * l) v)
        - F (freq2 pixel (2 * k) (k - 1 - u) + freq2 pixel (2 * l) v)
        - (F (freq2 pixel (2 * k) u + freq2 pixel (2 * l) (l - 1 - v))
        - F (freq2 pixel (2 * k) (k - 1 - u) + freq2 pixel (2 * l) (l - 1 - v))))
          * (stepSin k u * stepSin l v) := by
    rw [Finset.mul_sum, Finset.mul_sum]
    refine Finset.sum_congr rfl fun u _ => ?_
    rw [hφ]
    dsimp only
    rw [← mul_sub, ← Finset.sum_sub_distrib, Finset.mul_sum, Finset.sum_mul, Finset.mul_sum,
      Finset.mul_sum]
    refine Finset.sum_congr rfl fun v _ => ?_
    ring
  rw [e3]
  have e4 : ∀ u < k, ∀ v < l, 0 ≤ (F (freq2 pixel (2 * k) u + freq2 pixel (2 * l) v)
        - F (freq2 pixel (2 * k) (k - 1 - u) + freq2 pixel (2 * l) v)
        - (F (freq2 pixel (2 * k) u + freq2 pixel (2 * l) (l - 1 - v))
        - F (freq2 pixel (2 * k) (k - 1 - u) + freq2 pixel (2 * l) (l - 1 - v))))
          * (stepSin k u * stepSin l v) ∧ (u = 0 → v = 0 →
      0 < (F (freq2 pixel (2 * k) u + freq2 pixel (2 * l) v)
        - F (freq2 pixel (2 * k) (k - 1 - u) + freq2 pixel (2 * l) v)
        - (F (freq2 pixel (2 * k) u + freq2 pixel (2 * l) (l - 1 - v))
        - F (freq2 pixel (2 * k) (k - 1 - u) + freq2 pixel (2 * l) (l - 1 - v))))
          * (stepSin k u * stepSin l v)) := by
    intro u hu v hv
    obtain ⟨q, hq, h⟩ := e2 u v
    obtain ⟨s1, s2⟩ := step_sign pixel hp k u hu
    obtain ⟨t1, t2⟩ := step_sign pixel hp l v hv
    rw [h]
    have e : ∀ A B C D : ℝ, q * (A * B) * (C * D) = q * ((A * C) * (B * D)) := by intros; ring
    rw [e]
    refine ⟨mul_nonneg hq.le (mul_nonneg s1 t1), fun h0 h1 => mul_pos hq (mul_pos (s2 ?_) (t2 ?_))⟩
      <;> omega
  refine mul_pos (by norm_num) ?_
  refine Finset.sum_pos' (fun u hu => Finset.sum_nonneg fun v hv =>
    (e4 u (Finset.mem_range.1 hu) v (Finset.mem_range.1 hv)).1) ⟨0, Finset.mem_range.2 (by omega), ?_⟩
  exact Finset.sum_pos' (fun v hv => (e4 0 (by omega) v (Finset.mem_range.1 hv)).1)
    ⟨0, Finset.mem_range.2 (by omega), (e4 0 (by omega) 0 (by omega)).2 rfl rfl⟩

theorem ker_skew (h w : Nat) (g : Frame) : ker h w g 1 (-1) - ker h w g 1 1
    = 2 * (∑ u ∈ Finset.range h, ∑ v ∈ Finset.range w,
      g u v * (Real.sin (2 * Real.pi * u / h) * Real.sin (2 * Real.pi * v / w))) / (h * w) := by
  unfold ker
  rw [← sub_div, ← Finset.sum_sub_distrib, Finset.mul_sum]
  congr 1
  refine Finset.sum_congr rfl fun u _ => ?_
  rw [← Finset.sum_sub_distrib, Finset.mul_sum]
  refine Finset.sum_congr rfl fun v _ => ?_
  have e1 : 2 * Real.pi * (((1 : Int) : ℝ) * u) / h + 2 * Real.pi * (((-1 : Int) : ℝ) * v) / w
      = 2 * Real.pi * u / h - 2 * Real.pi * v / w := by push_cast; ring
  have e2 : 2 * Real.pi * (((1 : Int) : ℝ) * u) / h + 2 * Real.pi * (((1 : Int) : ℝ) * v) / w
      = 2 * Real.pi * u / h + 2 * Real.pi * v / w := by push_cast; ring
  rw [e1, e2, Real.cos_sub, Real.cos_add]
  ring

/-- **C189** (skew).  In every frame with even numbers of rows and columns, at least four of each,
the pixel one row down and one column to the left of a bright pixel receives more than the one to
the right, for all parameters. -/
theorem ker_left_right (pixel dist energy alpha : ℝ) (hp : 0 < pixel) (hd : 0 < dist)
    (he : 0 < energy) (ha : 0 < alpha) (h w : Nat) (hh : 4 ≤ h) (hw : 4 ≤ w) (eh : h % 2 = 0)
    (ew : w % 2 = 0) :
    ker h w (normalized h w (phaseFilter pixel dist energy alpha h w)) 1 1
      < ker h w (normalized h w (phaseFilter pixel dist energy alpha h w)) 1 (-1) := by
  obtain ⟨k, rfl⟩ : ∃ k, h = 2 * k := ⟨h / 2, by omega⟩
  obtain ⟨l, rfl⟩ : ∃ l, w = 2 * l := ⟨w / 2, by omega⟩
  have hs := sin_sin_pos pixel dist energy alpha hp hd he ha k l (by omega) (by omega)
  have hm : 0 < maxOf (2 * k) (2 * l) (phaseFilter pixel dist energy alpha (2 * k) (2 * l)) :=
    lt_of_lt_of_le (show 0 < phaseFilter pixel dist energy alpha (2 * k) (2 * l) 0 0 from
      paganin_pos energy dist alpha he hd ha _ (add_nonneg (sq_nonneg _) (sq_nonneg _)))
      (le_maxOf (2 * k) (2 * l) _ 0 0 (by omega) (by omega))
  rw [← sub_pos, ker_skew]
  have e : ∑ u ∈ Finset.range (2 * k), ∑ v ∈ Finset.range (2 * l),
      normalized (2 * k) (2 * l) (phaseFilter pixel dist energy alpha (2 * k) (2 * l)) u v
        * (Real.sin (2 * Real.pi * u / (2 * k : Nat)) * Real.sin (2 * Real.pi * v / (2 * l : Nat)))
      = (∑ u ∈ Finset.range (2 * k), ∑ v ∈ Finset.range (2 * l),
      phaseFilter pixel dist energy alpha (2 * k) (2 * l) u v
        * (Real.sin (2 * Real.pi * u / (2 * k : Nat)) * Real.sin (2 * Real.pi * v / (2 * l : Nat))))
        / maxOf (2 * k) (2 * l) (phaseFilter pixel dist energy alpha (2 * k) (2 * l)) := by
    simp only [Finset.sum_div]
    refine Finset.sum_congr rfl fun u _ => Finset.sum_congr rfl fun v _ => ?_
    unfold normalized
    ring
  rw [e]
  have h1 : (0 : ℝ) < (2 * k : Nat) := by
    have : 0 < 2 * k := by omega
    exact_mod_cast this
  have h2 : (0 : ℝ) < (2 * l : Nat) := by
    have : 0 < 2 * l := by omega
    exact_mod_cast this
  positivity

/-! ### Results in terms of the call -/

/-- **C189** (turning).  `retrieve_phase` with padding on projections with even numbers of rows and
columns: if every projection of a second stack is the one of the first turned by 180 degrees, so are
the results, for all numbers of cores, chunk sizes and schedules of the two calls. -/
theorem retrieve_phase_turned (cpu cpu₂ : Nat) (debug debug₂ : Bool) (n dy dz : Nat) (hy : 0 < dy)
    (hz : 0 < dz) (ey : dy % 2 = 0) (ez : dz % 2 = 0) (pixel dist energy alpha val val₂ : ℝ)
    (hp : 0 < pixel) (hd : 0 < dist) (he : 0 < energy) (ncore nchunk ncore₂ nchunk₂ : Option Nat)
    (m m' m₂ m₂' : Mproc.Cell → Frame) (res res₂ : Mproc.Buf)
    (h : Mproc.DistributeJobs cpu debug
      ⟨n, [0], none, fun _ => false, retrievePhase dy dz pixel dist energy alpha val true, ncore,
        nchunk, fun _ => false⟩ (fun _ => false) m m' res)
    (h₂ : Mproc.DistributeJobs cpu₂ debug₂
      ⟨n, [0], none, fun _ => false, retrievePhase dy dz pixel dist energy alpha val₂ true, ncore₂,
        nchunk₂, fun _ => false⟩ (fun _ => false) m₂ m₂' res₂)
    (s : Nat) (hs : s < n)
    (ht : ∀ r < dy, ∀ c < dz, m₂ (.caller 0, s) r c = turned dy dz (m (.caller 0, s)) r c) :
    ∀ r < dy, ∀ c < dz, m₂' (res₂, s) r c = turned dy dz (m' (res, s)) r c := by
  have hpp := padPix_pos pixel dist energy hp hd he
  obtain ⟨h1, h2⟩ := padWidth_even dy _ hy hpp ey
  obtain ⟨h3, h4⟩ := padWidth_even dz _ hz hpp ez
  intro r hr c hc
  rw [retrieve_distributed cpu₂ debug₂ n dy dz hy hz pixel dist energy alpha val₂ true ncore₂ nchunk₂
    m₂ m₂' res₂ h₂ s hs]
  unfold turned
  rw [retrieve_distributed cpu debug n dy dz hy hz pixel dist energy alpha val true ncore nchunk
    m m' res h s hs]
  unfold phaseResult
  have e : calcPad dy dz pixel dist energy true
      = (padWidth dy (padPix pixel (wavelength energy) dist),
        padWidth dz (padPix pixel (wavelength energy) dist)) := rfl
  rw [e]
  dsimp only
  generalize padWidth dy (padPix pixel (wavelength energy) dist) = px at *
  generalize padWidth dz (padPix pixel (wavelength energy) dist) = py at *
  have n1 := h2.ne'
  have n2 := h4.ne'
  simp only [ext, n1, n2, if_false]
  rw [applyFilter_congr _ _ _ _ (turned (dy + 2 * px) (dz + 2 * py)
    (fun r c => m (.caller 0, s) (nearest px dy r) (nearest py dz c))) ?_]
  · rw [filter_turned _ _ _ _ _ _ (by omega) (by omega)]
    unfold turned
    congr 1 <;> omega
  · intro r' _ c' _
    unfold turned
    dsimp only
    rw [nearest_reflect px dy r' hy, nearest_reflect py dz c' hz,
      ht _ (by unfold nearest; omega) _ (by unfold nearest; omega)]
    rfl

theorem nearest_inner (p n i k : Nat) (hk : 0 < k) (hk' : k + 1 < n) :
    nearest p n i = k ↔ i = k + p := by
  unfold nearest
  omega

/-- What `retrieve_phase` makes of a bright pixel that is not at the border. -/
theorem retrieve_phase_bright (cpu : Nat) (debug : Bool) (n dy dz : Nat)
    (ey : dy % 2 = 0) (ez : dz % 2 = 0) (pixel dist energy alpha val : ℝ)
    (hp : 0 < pixel) (hd : 0 < dist) (he : 0 < energy) (ncore nchunk : Option Nat)
    (m m' : Mproc.Cell → Frame) (res : Mproc.Buf)
    (h : Mproc.DistributeJobs cpu debug
      ⟨n, [0], none, fun _ => false, retrievePhase dy dz pixel dist energy alpha val true, ncore,
        nchunk, fun _ => false⟩ (fun _ => false) m m' res)
    (s : Nat) (hs : s < n) (v : ℝ) (r₀ c₀ : Nat) (hr₀ : 0 < r₀) (hr₁ : r₀ + 1 < dy) (hc₀ : 0 < c₀)
    (hc₁ : c₀ + 1 < dz) (hb : ∀ r < dy, ∀ c < dz, m (.caller 0, s) r c = bright v r₀ c₀ r c)
    (r c : Nat) :
    m' (res, s) r c = v * ker (dy + 2 * padWidth dy (padPix pixel (wavelength energy) dist))
      (dz + 2 * padWidth dz (padPix pixel (wavelength energy) dist))
      (gains dy dz pixel dist energy alpha true) ((r : Int) - r₀) ((c : Int) - c₀) := by
  have hpp := padPix_pos pixel dist energy hp hd he
  obtain ⟨h1, h2⟩ := padWidth_even dy _ (by omega) hpp ey
  obtain ⟨h3, h4⟩ := padWidth_even dz _ (by omega) hpp ez
  rw [retrieve_distributed cpu debug n dy dz (by omega) (by omega) pixel dist energy alpha val true
    ncore nchunk m m' res h s hs]
  unfold phaseResult
  have e : calcPad dy dz pixel dist energy true
      = (padWidth dy (padPix pixel (wavelength energy) dist),
        padWidth dz (padPix pixel (wavelength energy) dist)) := rfl
  rw [e]
  dsimp only
  generalize padWidth dy (padPix pixel (wavelength energy) dist) = px at *
  generalize padWidth dz (padPix pixel (wavelength energy) dist) = py at *
  have n1 := h2.ne'
  have n2 := h4.ne'
  simp only [ext, n1, n2, if_false]
  rw [applyFilter_congr _ _ _ _ (bright v (r₀ + px) (c₀ + py)) ?_]
  · rw [filter_ker, Finset.sum_eq_single_of_mem (r₀ + px) (Finset.mem_range.2 (by omega)),
      Finset.sum_eq_single_of_mem (c₀ + py) (Finset.mem_range.2 (by omega))]
    · unfold bright
      rw [if_pos ⟨rfl, rfl⟩]
      congr 2 <;> (push_cast; ring)
    · intro c' _ hne
      unfold bright
      rw [if_neg (by tauto), zero_mul]
    · intro r' _ hne
      refine Finset.sum_eq_zero fun c' _ => ?_
      unfold bright
      rw [if_neg (by tauto), zero_mul]
  · intro r' _ c' _
    rw [hb _ (by unfold nearest; omega) _ (by unfold nearest; omega)]
    unfold bright
    simp only [nearest_inner px dy r' r₀ hr₀ hr₁, nearest_inner py dz c' c₀ hc₀ hc₁]

theorem frame_at_least_four (n p : Nat) (h : 2 < n) (e : n % 2 = 0) : 4 ≤ n + 2 * p := by omega

/-- **C189** (refuted for mirror images).  Phase retrieval of a dark projection with one bright pixel
is not symmetric about the pixel: below it, the left neighbour gets more than the right one, for
every even size, position away from the border, pixel size, distance, energy, `alpha`, number of
cores and chunk size. -/
theorem retrieve_phase_skew (cpu : Nat) (debug : Bool) (n dy dz : Nat)
    (ey : dy % 2 = 0) (ez : dz % 2 = 0) (pixel dist energy alpha val : ℝ)
    (hp : 0 < pixel) (hd : 0 < dist) (he : 0 < energy) (ha : 0 < alpha) (ncore nchunk : Option Nat)
    (m m' : Mproc.Cell → Frame) (res : Mproc.Buf)
    (h : Mproc.DistributeJobs cpu debug
      ⟨n, [0], none, fun _ => false, retrievePhase dy dz pixel dist energy alpha val true, ncore,
        nchunk, fun _ => false⟩ (fun _ => false) m m' res)
    (s : Nat) (hs : s < n) (v : ℝ) (hv : 0 < v) (r₀ c₀ : Nat) (hr₀ : 0 < r₀) (hr₁ : r₀ + 1 < dy)
    (hc₀ : 0 < c₀) (hc₁ : c₀ + 1 < dz)
    (hb : ∀ r < dy, ∀ c < dz, m (.caller 0, s) r c = bright v r₀ c₀ r c) :
    m' (res, s) (r₀ + 1) (c₀ + 1) < m' (res, s) (r₀ + 1) (c₀ - 1) := by
  rw [retrieve_phase_bright cpu debug n dy dz ey ez pixel dist energy alpha val hp hd he ncore nchunk
    m m' res h s hs v r₀ c₀ hr₀ hr₁ hc₀ hc₁ hb, retrieve_phase_bright cpu debug n dy dz ey ez pixel
    dist energy alpha val hp hd he ncore nchunk m m' res h s hs v r₀ c₀ hr₀ hr₁ hc₀ hc₁ hb]
  have e1 : ((r₀ + 1 : Nat) : Int) - r₀ = 1 := by omega
  have e2 : ((c₀ + 1 : Nat) : Int) - c₀ = 1 := by omega
  have e3 : ((c₀ - 1 : Nat) : Int) - c₀ = -1 := by omega
  rw [e1, e2, e3]
  refine mul_lt_mul_of_pos_left ?_ hv
  exact ker_left_right pixel dist energy alpha hp hd he ha _ _
    (frame_at_least_four dy _ (by omega) ey) (frame_at_least_four dz _ (by omega) ez)
    (by omega) (by omega)

/-- **C189** (refuted for mirror images).  The result of the mirrored projection is not the mirrored
result. -/
theorem retrieve_phase_mirrored_fails (cpu cpu₂ : Nat) (debug debug₂ : Bool) (n dy dz : Nat)
    (ey : dy % 2 = 0) (ez : dz % 2 = 0) (pixel dist energy alpha val val₂ : ℝ)
    (hp : 0 < pixel) (hd : 0 < dist) (he : 0 < energy) (ha : 0 < alpha)
    (ncore nchunk ncore₂ nchunk₂ : Option Nat)
    (m m' m₂ m₂' : Mproc.Cell → Frame) (res res₂ : Mproc.Buf)
    (h : Mproc.DistributeJobs cpu debug
      ⟨n, [0], none, fun _ => false, retrievePhase dy dz pixel dist energy alpha val true, ncore,
        nchunk, fun _ => false⟩ (fun _ => false) m m' res)
    (h₂ : Mproc.DistributeJobs cpu₂ debug₂
      ⟨n, [0], none, fun _ => false, retrievePhase dy dz pixel dist energy alpha val₂ true, ncore₂,
        nchunk₂, fun _ => false⟩ (fun _ => false) m₂ m₂' res₂)
    (s : Nat) (hs : s < n) (v : ℝ) (hv : 0 < v) (r₀ c₀ : Nat) (hr₀ : 0 < r₀) (hr₁ : r₀ + 1 < dy)
    (hc₀ : 0 < c₀) (hc₁ : c₀ + 1 < dz)
    (hb : ∀ r < dy, ∀ c < dz, m (.caller 0, s) r c = bright v r₀ c₀ r c)
    (hm : ∀ r < dy, ∀ c < dz, m₂ (.caller 0, s) r c = mirrored dz (m (.caller 0, s)) r c) :
    mirrored dz (m' (res, s)) (r₀ + 1) (dz - 1 - (c₀ + 1))
      < m₂' (res₂, s) (r₀ + 1) (dz - 1 - (c₀ + 1)) := by
  have hb₂ : ∀ r < dy, ∀ c < dz, m₂ (.caller 0, s) r c = bright v r₀ (dz - 1 - c₀) r c := by
    intro r hr c hc
    rw [hm r hr c hc]
    unfold mirrored
    rw [hb r hr _ (by omega)]
    unfold bright
    congr 1
    apply propext
    constructor <;> rintro ⟨a, b⟩ <;> exact ⟨a, by omega⟩
  unfold mirrored
  rw [show dz - 1 - (dz - 1 - (c₀ + 1)) = c₀ + 1 by omega]
  refine lt_of_lt_of_eq (retrieve_phase_skew cpu debug n dy dz ey ez pixel dist energy alpha val hp hd
    he ha ncore nchunk m m' res h s hs v hv r₀ c₀ hr₀ hr₁ hc₀ hc₁ hb) ?_
  rw [retrieve_phase_bright cpu debug n dy dz ey ez pixel dist energy alpha val hp hd he ncore nchunk
    m m' res h s hs v r₀ c₀ hr₀ hr₁ hc₀ hc₁ hb, retrieve_phase_bright cpu₂ debug₂ n dy dz ey ez pixel
    dist energy alpha val₂ hp hd he ncore₂ nchunk₂ m₂ m₂' res₂ h₂ s hs v r₀ (dz - 1 - c₀) hr₀ hr₁
    (by omega) (by omega) hb₂]
  congr 2
  omega

/-- The hypotheses can be met: a stack of six projections of 16 × 20 pixels with a bright pixel, and
the call on the mirrored stack with another number of cores. -/
example : ∃ m' res m₂' res₂, Mproc.DistributeJobs 4 false
    ⟨6, [0], none, fun _ => false, retrievePhase 16 20 (1 / 10000) 50 20 (1 / 1000) 0 true, some 3,
      some 2, fun _ => false⟩ (fun _ => false) (fun _ => bright 1 5 7) m' res ∧
    Mproc.DistributeJobs 4 false
    ⟨6, [0], none, fun _ => false, retrievePhase 16 20 (1 / 10000) 50 20 (1 / 1000) 0 true, some 2,
      some 1, fun _ => false⟩ (fun _ => false) (fun _ => mirrored 20 (bright 1 5 7)) m₂' res₂ ∧
    m' (res, 3) 6 8 < m₂' (res₂, 3) 6 11 := by
  obtain ⟨m', res, h⟩ := Mproc.distribute_jobs_total 4 false
    (⟨6, [0], none, fun _ => false, retrievePhase 16 20 (1 / 10000) 50 20 (1 / 1000) 0 true, some 3,
      some 2, fun _ => false⟩ : Mproc.Call Frame) (fun _ => false) (fun _ => bright 1 5 7) 3 2
    (by decide)
  obtain ⟨m₂', res₂, h₂⟩ := Mproc.distribute_jobs_total 4 false
    (⟨6, [0], none, fun _ => false, retrievePhase 16 20 (1 / 10000) 50 20 (1 / 1000) 0 true, some 2,
      some 1, fun _ => false⟩ : Mproc.Call Frame) (fun _ => false)
    (fun _ => mirrored 20 (bright 1 5 7)) 2 1 (by decide)
  exact ⟨m', res, m₂', res₂, h, h₂, retrieve_phase_mirrored_fails 4 4 false false 6 16 20 rfl rfl
    _ _ _ _ 0 0 (by norm_num) (by norm_num) (by norm_num) (by norm_num) _ _ _ _ _ m' _ m₂' res res₂
    h h₂ 3 (by norm_num) 1 (by norm_num) 5 7 (by norm_num) (by norm_num) (by norm_num) (by norm_num)
    (fun _ _ _ _ => rfl) (fun _ _ _ _ => rfl)⟩

end

end Tomopy.Phase
