import Verif.Probe.Model
import Mathlib.Algebra.BigOperators.Field
import Mathlib.Algebra.BigOperators.Ring.Finset
import Mathlib.Analysis.SpecialFunctions.Pow.Real
import Mathlib.Tactic.Ring
import Mathlib.Tactic.Linarith
import Mathlib.Tactic.FieldSimp

/-! C77: propagation by the transport of intensity; C78: the Gaussian probe. -/

namespace Tomopy.Probe

noncomputable section

/-! ### C77 -/

theorem sum_interior (h : ℝ) (f : Nat → ℝ) : ∀ m : Nat,
    ∑ i ∈ Finset.range m, (f (i + 2) - f i) / (2 * h) = (f (m + 1) + f m - f 1 - f 0) / (2 * h) := by
  intro m
  induction m with
  | zero => simp
  | succ m ih =>
    rw [Finset.sum_range_succ, ih]
    ring

/-- The sum of a gradient only depends on two elements at each end. -/
theorem sum_grad1 (n : Nat) (hn : 2 ≤ n) (h : ℝ) (f : Nat → ℝ) :
    ∑ i ∈ Finset.range n, grad1 n h f i
      = (3 * f (n - 1) - f (n - 2) + f 1 - 3 * f 0) / (2 * h) := by
  obtain ⟨m, rfl⟩ := Nat.exists_eq_add_of_le' hn
  rw [Finset.sum_range_succ, Finset.sum_range_succ']
  have e : ∀ i ∈ Finset.range m, grad1 (m + 2) h f (i + 1) = (f (i + 2) - f i) / (2 * h) := by
    intro i hi
    have := Finset.mem_range.1 hi
    unfold grad1
    rw [if_neg (by omega), if_neg (by omega)]
    rfl
  rw [Finset.sum_congr rfl e, sum_interior]
  have e0 : grad1 (m + 2) h f 0 = (f 1 - f 0) / h := by simp [grad1]
  have e1 : grad1 (m + 2) h f (m + 1) = (f (m + 1) - f m) / h := by simp [grad1]
  rw [e0, e1]
  simp only [show m + 2 - 1 = m + 1 by omega, show m + 2 - 2 = m by omega]
  rcases eq_or_ne h 0 with rfl | h0
  · simp
  · field_simp
    ring

/-- Ends of an axis at which a function is flat: the first three and the last three elements. -/
def FlatEnds (n : Nat) (f : Nat → ℝ) : Prop :=
  f 1 = f 0 ∧ f 2 = f 0 ∧ f (n - 2) = f (n - 1) ∧ f (n - 3) = f (n - 1)

theorem grad1_flat (n : Nat) (hn : 3 ≤ n) (h : ℝ) (f : Nat → ℝ) (hf : FlatEnds n f) :
    grad1 n h f 0 = 0 ∧ grad1 n h f 1 = 0 ∧ grad1 n h f (n - 2) = 0 ∧ grad1 n h f (n - 1) = 0 := by
  obtain ⟨h1, h2, h3, h4⟩ := hf
  unfold grad1
  refine ⟨by simp [h1], ?_, ?_, ?_⟩
  · rw [if_neg (by omega), if_neg (by omega)]
    simp [h2]
  · rw [if_neg (by omega), if_neg (by omega), show n - 2 + 1 = n - 1 by omega,
      show n - 2 - 1 = n - 3 by omega, h4, sub_self, zero_div]
  · rw [if_neg (by omega), if_pos rfl, h3, sub_self, zero_div]

theorem sum_flux (n : Nat) (hn : 3 ≤ n) (h : ℝ) (f w : Nat → ℝ) (hf : FlatEnds n f) :
    ∑ i ∈ Finset.range n, grad1 n h (fun i => w i * grad1 n h f i) i = 0 := by
  obtain ⟨a, b, c, d⟩ := grad1_flat n hn h f hf
  rw [sum_grad1 n (by omega)]
  simp [a, b, c, d]

/-- **C77** (conservation).  When the refractive index of a projection is flat at its border, the
sum over the projection is the sum of the attenuated intensity: nothing is lost or gained by
propagation. -/
theorem tie_conserves (n r c : Nat) (hr : 3 ≤ r) (hc : 3 ≤ c) (pixel dist : ℝ)
    (mu delta out : Nat → Nat → Nat → ℝ) (m : Nat)
    (hrow : ∀ i, FlatEnds c fun j => delta m i j) (hcol : ∀ j, FlatEnds r fun i => delta m i j)
    (h : propagateTie n r c pixel dist mu delta = .ok out) :
    ∑ i ∈ Finset.range r, ∑ j ∈ Finset.range c, out m i j
      = ∑ i ∈ Finset.range r, ∑ j ∈ Finset.range c, Real.exp (-mu m i j) := by
  unfold propagateTie at h
  rw [if_neg (by omega)] at h
  injection h with h
  subst h
  unfold tieFrame
  dsimp only
  simp only [Finset.sum_add_distrib, ← Finset.mul_sum]
  have e1 : ∑ i ∈ Finset.range r, ∑ j ∈ Finset.range c, gradRows r pixel
      (fun i j => Real.exp (-mu m i j) * gradRows r pixel (delta m) i j) i j = 0 := by
    rw [Finset.sum_comm]
    exact Finset.sum_eq_zero fun j _ => sum_flux r hr pixel _ _ (hcol j)
  have e2 : ∑ i ∈ Finset.range r, ∑ j ∈ Finset.range c, gradCols c pixel
      (fun i j => Real.exp (-mu m i j) * gradCols c pixel (delta m) i j) i j = 0 :=
    Finset.sum_eq_zero fun i _ => sum_flux c hc pixel _ _ (hrow i)
  rw [e1, e2]
  ring

theorem grad1_const (n : Nat) (h v : ℝ) (i : Nat) : grad1 n h (fun _ => v) i = 0 := by
  simp [grad1]

theorem grad1_lin (n : Nat) (h a b : ℝ) (f g : Nat → ℝ) (i : Nat) :
    grad1 n h (fun i => a * f i + b * g i) i = a * grad1 n h f i + b * grad1 n h g i := by
  unfold grad1
  split_ifs <;> ring

/-- **C77** (nothing to propagate).  For distance zero, or a constant refractive index, the result
is the attenuated intensity. -/
theorem tie_attenuation (n r c : Nat) (pixel dist : ℝ) (mu delta out : Nat → Nat → Nat → ℝ) (m : Nat)
    (h : propagateTie n r c pixel dist mu delta = .ok out)
    (h0 : dist = 0 ∨ ∃ v, ∀ i j, delta m i j = v) (i j : Nat) :
    out m i j = Real.exp (-mu m i j) := by
  unfold propagateTie at h
  split_ifs at h
  injection h with h
  subst h
  unfold tieFrame
  dsimp only
  rcases h0 with rfl | ⟨v, hv⟩
  · simp
  · have e1 : ∀ i j, gradRows r pixel (delta m) i j = 0 := by
      intro i j
      unfold gradRows
      simp only [hv, grad1_const]
    have e2 : ∀ i j, gradCols c pixel (delta m) i j = 0 := by
      intro i j
      unfold gradCols
      simp only [hv, grad1_const]
    simp only [e1, e2, mul_zero]
    simp [gradRows, gradCols, grad1_const]

/-- **C77** (affine).  The change caused by propagation is linear in the refractive index. -/
theorem tie_linear (r c : Nat) (pixel dist a b : ℝ) (mu d d' : Nat → Nat → ℝ) (i j : Nat) :
    tieFrame r c pixel dist mu (fun i j => a * d i j + b * d' i j) i j - Real.exp (-mu i j)
      = a * (tieFrame r c pixel dist mu d i j - Real.exp (-mu i j))
        + b * (tieFrame r c pixel dist mu d' i j - Real.exp (-mu i j)) := by
  have e1 : ∀ i j, Real.exp (-mu i j) * gradRows r pixel (fun i j => a * d i j + b * d' i j) i j
      = a * (Real.exp (-mu i j) * gradRows r pixel d i j)
        + b * (Real.exp (-mu i j) * gradRows r pixel d' i j) := by
    intro i j
    unfold gradRows
    rw [grad1_lin r pixel a b (fun i => d i j) (fun i => d' i j)]
    ring
  have e2 : ∀ i j, Real.exp (-mu i j) * gradCols c pixel (fun i j => a * d i j + b * d' i j) i j
      = a * (Real.exp (-mu i j) * gradCols c pixel d i j)
        + b * (Real.exp (-mu i j) * gradCols c pixel d' i j) := by
    intro i j
    unfold gradCols
    rw [grad1_lin c pixel a b (fun j => d i j) (fun j => d' i j)]
    ring
  unfold tieFrame
  dsimp only
  simp only [e1, e2]
  have e3 : ∀ F G : Nat → Nat → ℝ, gradRows r pixel (fun i j => a * F i j + b * G i j) i j
      = a * gradRows r pixel F i j + b * gradRows r pixel G i j := fun F G =>
    grad1_lin r pixel a b (fun i => F i j) (fun i => G i j) i
  have e4 : ∀ F G : Nat → Nat → ℝ, gradCols c pixel (fun i j => a * F i j + b * G i j) i j
      = a * gradCols c pixel F i j + b * gradCols c pixel G i j := fun F G =>
    grad1_lin c pixel a b (fun j => F i j) (fun j => G i j) j
  rw [e3, e4]
  ring

/-- **C77** (every projection on its own, and an exact case).  Away from the border of a
projection with constant attenuation, a refractive index that is a quadratic function of the
position (in units of length) gives the intensity that the transport equation prescribes. -/
theorem tie_quadratic (n r c : Nat) (pixel dist : ℝ) (hp : pixel ≠ 0)
    (mu delta out : Nat → Nat → Nat → ℝ) (m : Nat) (m0 a b : ℝ)
    (h : propagateTie n r c pixel dist mu delta = .ok out)
    (hm : ∀ i j, mu m i j = m0)
    (hd : ∀ i j : Nat, delta m i j = a * ((i : ℝ) * pixel) ^ 2 + b * ((j : ℝ) * pixel) ^ 2)
    (i j : Nat) (hi : 2 ≤ i) (hi' : i + 2 < r) (hj : 2 ≤ j) (hj' : j + 2 < c) :
    out m i j = Real.exp (-m0) * (1 + dist * (2 * a + 2 * b)) := by
  unfold propagateTie at h
  split_ifs at h
  injection h with h
  subst h
  have eg : ∀ (n : Nat) (f : Nat → ℝ) (i : Nat), 1 ≤ i → i + 1 < n →
      grad1 n pixel f i = (f (i + 1) - f (i - 1)) / (2 * pixel) := by
    intro n f i h1 h2
    unfold grad1
    rw [if_neg (by omega), if_neg (by omega)]
  obtain ⟨i, rfl⟩ := Nat.exists_eq_add_of_le' hi
  obtain ⟨j, rfl⟩ := Nat.exists_eq_add_of_le' hj
  unfold tieFrame gradRows gradCols
  dsimp only
  rw [eg r _ (i + 2) (by omega) (by omega), eg c _ (j + 2) (by omega) (by omega),
    eg r _ (i + 2 + 1) (by omega) (by omega), eg r _ (i + 2 - 1) (by omega) (by omega),
    eg c _ (j + 2 + 1) (by omega) (by omega), eg c _ (j + 2 - 1) (by omega) (by omega)]
  simp only [hm, hd, show i + 2 - 1 = i + 1 by omega, show j + 2 - 1 = j + 1 by omega,
    show i + 2 + 1 - 1 = i + 2 by omega, show j + 2 + 1 - 1 = j + 2 by omega,
    show i + 1 - 1 = i by omega, show j + 1 - 1 = j by omega]
  push_cast
  field_simp
  ring

/-- Only the slices of `mu` and `delta` belonging to a projection are used for it. -/
theorem tie_slice (n r c : Nat) (pixel dist : ℝ) (mu delta mu' delta' out out' : Nat → Nat → Nat → ℝ)
    (m : Nat) (hm : mu m = mu' m) (hd : delta m = delta' m)
    (h : propagateTie n r c pixel dist mu delta = .ok out)
    (h' : propagateTie n r c pixel dist mu' delta' = .ok out') : out m = out' m := by
  unfold propagateTie at h h'
  split_ifs at h
  rw [if_neg (by assumption)] at h'
  injection h with h
  injection h' with h'
  subst h; subst h'
  dsimp only
  rw [hm, hd]

/-- A projection with one row or column is refused. -/
theorem tie_small (n c : Nat) (hn : 0 < n) (pixel dist : ℝ) (mu delta : Nat → Nat → Nat → ℝ) :
    propagateTie n 1 c pixel dist mu delta = .error .value := by
  unfold propagateTie
  rw [if_pos ⟨hn, Or.inl (by omega)⟩]

example : ∃ out, propagateTie 1 7 7 1 5 (fun _ i _ => i)
      (fun _ i j => if i = 3 ∧ j = 3 then 1 else 0) = .ok out ∧
    ∑ i ∈ Finset.range 7, ∑ j ∈ Finset.range 7, out 0 i j
      = ∑ i ∈ Finset.range 7, ∑ _j ∈ Finset.range 7, Real.exp (-(i : ℝ)) := by
  have e : ∃ out, propagateTie 1 7 7 1 5 (fun _ i _ => i)
      (fun _ i j => if i = 3 ∧ j = 3 then 1 else 0) = .ok out := by
    unfold propagateTie
    rw [if_neg (by omega)]
    exact ⟨_, rfl⟩
  obtain ⟨out, e⟩ := e
  exact ⟨out, e, tie_conserves 1 7 7 (by omega) (by omega) 1 5 (fun _ i _ => i) _ _ 0
    (fun i => by simp [FlatEnds]) (fun i => by simp [FlatEnds]) e⟩

/-! ### C78 -/

/-- Squared distance of pixel `(x, y)` from the centre of the default probe. -/
def dist2 (x y cx cy : ℝ) : ℝ := (x - cx) ^ 2 + (y - cy) ^ 2

theorem probe_value (nx ny : Nat) (w cx cy a : ℝ) (x y : Nat) :
    probeGauss nx ny (some w) (some (cx, cy)) a x y
      = a * (1 / 2 : ℝ) ^ (4 * dist2 x y (cx - 1 / 2) (cy - 1 / 2) / w ^ 2) := by
  unfold probeGauss dist2
  simp only [Option.getD_some, Option.map_some]
  congr 1
  rw [Real.rpow_def_of_pos (by norm_num), one_div, Real.log_inv]
  congr 1
  ring

/-- **C78** (range).  The probe is positive and at most the maximum. -/
theorem probe_range (nx ny : Nat) (fwhm : Option ℝ) (center : Option (ℝ × ℝ)) (a : ℝ) (ha : 0 < a)
    (x y : Nat) : 0 < probeGauss nx ny fwhm center a x y ∧ probeGauss nx ny fwhm center a x y ≤ a := by
  unfold probeGauss
  dsimp only
  refine ⟨by positivity, ?_⟩
  apply mul_le_of_le_one_right ha.le
  rw [Real.exp_le_one_iff]
  apply div_nonpos_of_nonpos_of_nonneg _ (sq_nonneg _)
  have := Real.log_pos (by norm_num : (1 : ℝ) < 2)
  have h2 : ∀ p q : ℝ, 0 ≤ p ^ 2 + q ^ 2 := fun p q => by positivity
  nlinarith [h2 ((x : ℝ) - (center.map Prod.fst).getD ((nx / 2 : Nat) : ℝ) + 1 / 2)
    ((y : ℝ) - (center.map Prod.snd).getD ((ny / 2 : Nat) : ℝ) + 1 / 2)]

/-- **C78** (width).  At half the width from its centre, which is half a pixel before the centre
given, the probe has half of its maximum; closer it is larger, farther away it is smaller. -/
theorem probe_fwhm (nx ny : Nat) (w cx cy a : ℝ) (hw : 0 < w) (ha : 0 < a) (x y : Nat) :
    let v := probeGauss nx ny (some w) (some (cx, cy)) a x y
    let d := Real.sqrt (dist2 x y (cx - 1 / 2) (cy - 1 / 2))
    (d = w / 2 → v = a / 2) ∧ (d < w / 2 → a / 2 < v) ∧ (w / 2 < d → v < a / 2) ∧ (d = 0 → v = a) := by
  intro v d
  have hv : v = a * (1 / 2 : ℝ) ^ (4 * d ^ 2 / w ^ 2) := by
    show probeGauss nx ny (some w) (some (cx, cy)) a x y = _
    rw [probe_value, Real.sq_sqrt (by unfold dist2; positivity)]
  have hd : 0 ≤ d := Real.sqrt_nonneg _
  have h12 : ((1 : ℝ) / 2) ^ (1 : ℝ) = 1 / 2 := Real.rpow_one _
  refine ⟨?_, ?_, ?_, ?_⟩
  · intro h
    have e : 4 * d ^ 2 / w ^ 2 = 1 := by rw [h]; field_simp; ring
    rw [hv, e, h12]; ring
  · intro h
    have e : 4 * d ^ 2 / w ^ 2 < 1 := by
      rw [div_lt_one (by positivity)]
      nlinarith
    rw [hv]
    have := Real.rpow_lt_rpow_of_exponent_gt (by norm_num : (0 : ℝ) < 1 / 2) (by norm_num) e
    rw [h12] at this
    nlinarith
  · intro h
    have e : 1 < 4 * d ^ 2 / w ^ 2 := by
      rw [one_lt_div (by positivity)]
      nlinarith
    rw [hv]
    have := Real.rpow_lt_rpow_of_exponent_gt (by norm_num : (0 : ℝ) < 1 / 2) (by norm_num) e
    rw [h12] at this
    nlinarith
  · intro h
    rw [hv, h]
    simp

/-- **C78** (symmetry).  On a grid of even size the default probe is symmetric about the middle of
the grid. -/
theorem probe_symmetric_partial (nx ny : Nat) (hx : nx % 2 = 0) (hy : ny % 2 = 0) (fwhm : Option ℝ)
    (a : ℝ) (x y : Nat) (hxn : x < nx) (hyn : y < ny) :
    probeGauss nx ny fwhm none a (nx - 1 - x) y = probeGauss nx ny fwhm none a x y ∧
    probeGauss nx ny fwhm none a x (ny - 1 - y) = probeGauss nx ny fwhm none a x y := by
  have key : ∀ n z : Nat, n % 2 = 0 → z < n →
      (((n - 1 - z : Nat) : ℝ) - ((n / 2 : Nat) : ℝ) + 1 / 2) ^ 2
        = ((z : ℝ) - ((n / 2 : Nat) : ℝ) + 1 / 2) ^ 2 := by
    intro n z hn hz
    have e : ((n - 1 - z : Nat) : ℝ) = 2 * ((n / 2 : Nat) : ℝ) - 1 - z := by
      have : n - 1 - z + 1 + z = 2 * (n / 2) := by omega
      have h2 : ((n - 1 - z : Nat) : ℝ) + 1 + z = 2 * ((n / 2 : Nat) : ℝ) := by exact_mod_cast this
      linarith
    rw [e]
    ring
  unfold probeGauss
  simp only [Option.map_none, Option.getD_none]
  rw [key nx x hx hxn, key ny y hy hyn]
  exact ⟨rfl, rfl⟩

/-- The full statement is false: on a grid of odd size the default probe is not symmetric; its
centre is half a pixel before the middle pixel, as `//` drops the half. -/
theorem probe_asymmetric (k : Nat) (hk : 0 < k) (a : ℝ) (ha : 0 < a) :
    probeGauss (2 * k + 1) (2 * k + 1) none none a (2 * k) k
      < probeGauss (2 * k + 1) (2 * k + 1) none none a 0 k := by
  unfold probeGauss
  simp only [Option.map_none, Option.getD_none, max_self, show (2 * k + 1) / 2 = k by omega]
  apply mul_lt_mul_of_pos_left _ ha
  rw [Real.exp_lt_exp]
  have hk' : (0 : ℝ) < k := by exact_mod_cast hk
  apply div_lt_div_of_pos_right _ (by positivity)
  have := Real.log_pos (by norm_num : (1 : ℝ) < 2)
  push_cast
  nlinarith

example : probeGauss 4 4 (some 2) (some (2, 2)) 10 3 1 < 10 / 2 := by
  refine (probe_fwhm 4 4 2 2 2 10 (by norm_num) (by norm_num) 3 1).2.2.1 ?_
  rw [Real.lt_sqrt (by norm_num)]
  unfold dist2
  norm_num

example : probeGauss 4 6 none none 1 0 2 = probeGauss 4 6 none none 1 3 2 :=
  ((probe_symmetric_partial 4 6 rfl rfl none 1 3 2 (by decide) (by decide)).1)

end

end Tomopy.Probe
