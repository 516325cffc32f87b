import Verif.Stripe.FilterModel
import Verif.Stripe.Sort
import Verif.Phase.Props
import Verif.Probe.Field

/-! Theorems about the filtering-based stripe removal (C91). -/
set_option linter.unusedSectionVars false

namespace Tomopy.Stripe
open Phase (rot)
open Tomopy.Num

noncomputable section

/-! ### Fourier sums -/

theorem rot_re (L : Nat) (m : Int) : (rot L m).re = Real.cos (2 * Real.pi * m / L) := by
  unfold rot
  have : (2 * Real.pi * Complex.I * m / L : ℂ) = ((2 * Real.pi * m / L : ℝ) : ℂ) * Complex.I := by
    push_cast; ring
  rw [this, Complex.exp_ofReal_mul_I_re]

/-- Multiplying the spectrum is a cyclic convolution. -/
theorem idft_dft_mul (L : Nat) (x y : Nat → ℂ) (n : Nat) :
    idft L (fun k => dft L x k * y k) n =
      ∑ j ∈ Finset.range L, x j * ((∑ k ∈ Finset.range L, y k * rot L (((n : Int) - j) * k)) / L) := by
  unfold idft dft
  simp only [Finset.sum_mul, Finset.mul_sum, Finset.sum_div]
  rw [Finset.sum_comm]
  refine Finset.sum_congr rfl fun j _ => Finset.sum_congr rfl fun k _ => ?_
  rw [show ((n : Int) - j) * k = -((j : Int) * k) + n * k by ring, Probe.rot_add]
  ring

theorem rot_half {h : Nat} (hh : 0 < h) (j : Nat) : rot (2 * h) (j * h) = (-1) ^ j := by
  have : rot (2 * h) (h : Int) = -1 := by
    unfold rot
    have hne : (h : ℂ) ≠ 0 := by exact_mod_cast hh.ne'
    have : (2 * Real.pi * Complex.I * ((h : Int) : ℂ) / ((2 * h : Nat) : ℂ)) = Real.pi * Complex.I := by
      push_cast
      field_simp
    rw [this, Complex.exp_pi_mul_I]
  rw [← this, Phase.rot_pow]

/-- The spectrum of the alternating signs is a single line in the middle. -/
theorem dft_sign {h : Nat} (hh : 0 < h) (c : ℂ) {k : Nat} (hk : k < 2 * h) :
    dft (2 * h) (fun j => c * (-1) ^ j) k = if k = h then c * ((2 * h : Nat) : ℂ) else 0 := by
  unfold dft
  have e : ∀ j : Nat, c * (-1) ^ j * rot (2 * h) (-(j * k)) = c * rot (2 * h) (j * ((h : Int) - k)) := by
    intro j
    rw [show (j : Int) * ((h : Int) - k) = j * h + -(j * k) by ring, Probe.rot_add, rot_half hh]
    ring
  simp only [e, ← Finset.mul_sum]
  rw [Phase.sum_rot _ (by omega)]
  by_cases hkh : k = h
  · subst hkh
    rw [if_pos (by simp), if_pos rfl]
  · rw [if_neg hkh, if_neg, mul_zero]
    rintro ⟨z, hz⟩
    rcases lt_trichotomy z 0 with h0 | h0 | h0
    · have := mul_le_mul_of_nonneg_left (show z ≤ -1 by omega) (show (0 : Int) ≤ (2 * h : Nat) by omega)
      omega
    · subst h0; omega
    · have := mul_le_mul_of_nonneg_left (show 1 ≤ z by omega) (show (0 : Int) ≤ (2 * h : Nat) by omega)
      omega

/-! ### The low-pass part -/

/-- The row continued by reflection about its first and last element. -/
def Mirrored (n pad : Nat) (x y : Nat → ℝ) : Prop :=
  (∀ t < n, y (pad + t) = x t) ∧ (∀ d, 0 < d → d ≤ pad → y (pad - d) = x d) ∧
  ∀ d, 0 < d → d ≤ pad → y (pad + (n - 1) + d) = x (n - 1 - d)

theorem padded_mirrored {n pad : Nat} (hp : pad < n) (x : Nat → ℝ) :
    Mirrored n pad x fun j => x (reflectSrc n pad j) := by
  refine ⟨fun t ht => ?_, fun d h0 hd => ?_, fun d h0 hd => ?_⟩
  · simp only [reflectSrc]
    rw [if_neg (by omega), if_pos (by omega), Nat.add_sub_cancel_left]
  · simp only [reflectSrc]
    rw [if_pos (by omega)]
    congr 1; omega
  · simp only [reflectSrc]
    rw [if_neg (by omega), if_neg (by omega)]
    congr 1; omega

/-- The padding never exceeds what reflection can supply. -/
theorem filterPad_lt {n : Nat} (hn : 0 < n) : filterPad n < n := by
  unfold filterPad; omega

theorem reflectSrc_lt {n pad j : Nat} (hp : pad < n) (hj : j < n + 2 * pad) :
    reflectSrc n pad j < n := by
  unfold reflectSrc
  split_ifs <;> omega

/-- **C91** The low-pass part of a column is a cyclic convolution of the mirrored column with an even
real kernel. -/
theorem smooth_conv (n pad : Nat) (w x : Nat → ℝ) (t : Nat) :
    smoothColumn n pad w x t = ∑ j ∈ Finset.range (n + 2 * pad), x (reflectSrc n pad j) *
      ((-1) ^ (t + pad + j) * (∑ k ∈ Finset.range (n + 2 * pad), w k *
        Real.cos (2 * Real.pi * (((t + pad : Nat) : ℝ) - j) * k / (n + 2 * pad : Nat))) / (n + 2 * pad : Nat)) := by
  unfold smoothColumn
  dsimp only
  rw [idft_dft_mul, Complex.re_mul_ofReal, Complex.re_sum, Finset.sum_mul]
  refine Finset.sum_congr rfl fun j _ => ?_
  rw [Complex.re_ofReal_mul]
  have : ((∑ k ∈ Finset.range (n + 2 * pad), (w k : ℂ) * rot (n + 2 * pad) ((((t + pad : Nat) : Int) - j) * k))
      / ((n + 2 * pad : Nat) : ℂ)).re = (∑ k ∈ Finset.range (n + 2 * pad), w k *
        Real.cos (2 * Real.pi * (((t + pad : Nat) : ℝ) - j) * k / (n + 2 * pad : Nat))) / (n + 2 * pad : Nat) := by
    rw [show (((n + 2 * pad : Nat)) : ℂ) = (((n + 2 * pad : Nat) : ℝ) : ℂ) by push_cast; rfl,
      Complex.div_ofReal_re, Complex.re_sum]
    congr 1
    refine Finset.sum_congr rfl fun k _ => ?_
    rw [Complex.re_ofReal_mul, rot_re]
    congr 2
    push_cast
    ring
  rw [this]
  unfold listSign
  rw [pow_add (-1 : ℝ) (t + pad) j]
  ring

/-- The low-pass part depends linearly on the column. -/
theorem smooth_linear (n pad : Nat) (w x y : Nat → ℝ) (a b : ℝ) (t : Nat) :
    smoothColumn n pad w (fun t => a * x t + b * y t) t =
      a * smoothColumn n pad w x t + b * smoothColumn n pad w y t := by
  rw [smooth_conv, smooth_conv, smooth_conv, Finset.mul_sum, Finset.mul_sum, ← Finset.sum_add_distrib]
  exact Finset.sum_congr rfl fun j _ => by ring

/-- Only the `n` values of the column matter. -/
theorem smooth_congr {n pad : Nat} (hp : pad < n) {w x y : Nat → ℝ} (h : ∀ t < n, x t = y t) (t : Nat) :
    smoothColumn n pad w x t = smoothColumn n pad w y t := by
  rw [smooth_conv, smooth_conv]
  exact Finset.sum_congr rfl fun j hj => by rw [h _ (reflectSrc_lt hp (Finset.mem_range.1 hj))]

/-- For an even number of angles a constant column is multiplied by the middle of the window. -/
theorem smooth_const {n pad : Nat} (hn : 0 < n) (he : Even n) (w : Nat → ℝ) (c : ℝ) (t : Nat) :
    smoothColumn n pad w (fun _ => c) t = c * w (n / 2 + pad) := by
  obtain ⟨h, rfl⟩ := he
  have hL : h + h + 2 * pad = 2 * (h + pad) := by ring
  have hh : 0 < h + pad := by omega
  have hm : (h + h) / 2 + pad = h + pad := by omega
  have hs : ∀ j : Nat, ((c * listSign j : ℝ) : ℂ) = (c : ℂ) * (-1) ^ j := fun j => by
    unfold listSign; push_cast; ring
  unfold smoothColumn
  simp only [hs]
  rw [hL, hm]
  unfold idft
  have e : ∀ k ∈ Finset.range (2 * (h + pad)), dft (2 * (h + pad)) (fun j => (c : ℂ) * (-1) ^ j) k *
      (w k : ℂ) * rot (2 * (h + pad)) (((t + pad : Nat) : Int) * k) =
      if k = h + pad then (c : ℂ) * ((2 * (h + pad) : Nat) : ℂ) * (w (h + pad) : ℂ) * (-1) ^ (t + pad) else 0 := by
    intro k hk
    rw [dft_sign hh _ (Finset.mem_range.1 hk)]
    split_ifs with hkh
    · subst hkh
      rw [rot_half hh]
    · ring
  rw [Finset.sum_congr rfl e, Finset.sum_ite_eq' , if_pos (Finset.mem_range.2 (by omega))]
  have hne : ((2 * (h + pad) : Nat) : ℂ) ≠ 0 := by
    exact_mod_cast (show 2 * (h + pad) ≠ 0 by omega)
  have hsq : ((-1 : ℂ) ^ (t + pad)) * ((listSign (t + pad) : ℝ) : ℂ) = 1 := by
    unfold listSign
    push_cast
    rw [← mul_pow]
    norm_num
  have : (c : ℂ) * ((2 * (h + pad) : Nat) : ℂ) * (w (h + pad) : ℂ) * (-1) ^ (t + pad) /
      ((2 * (h + pad) : Nat) : ℂ) * ((listSign (t + pad) : ℝ) : ℂ) = ((c * w (h + pad) : ℝ) : ℂ) := by
    calc _ = (c : ℂ) * (w (h + pad) : ℂ) * ((-1 : ℂ) ^ (t + pad) * ((listSign (t + pad) : ℝ) : ℂ)) := by
          field_simp
      _ = _ := by rw [hsq]; push_cast; ring
  rw [this, Complex.ofReal_re]

/-- The gain of the low-pass filter for a constant column. -/
def lowGain (sigma : ℝ) : ℝ := Real.exp (-(1 / (8 * sigma ^ 2)))

theorem gaussWindow_middle {n pad : Nat} (he : Even n) (sigma : ℝ) :
    gaussWindow (n + 2 * pad) sigma (n / 2 + pad) = lowGain sigma := by
  obtain ⟨h, rfl⟩ := he
  have hm : (h + h) / 2 = h := by omega
  unfold gaussWindow lowGain
  rw [hm]
  congr 2
  push_cast
  rw [show ((h : ℝ) + pad - (h + h + 2 * pad - 1) / 2) = 1 / 2 by ring]
  field_simp
  norm_num

theorem lowGain_lt_one {sigma : ℝ} (hs : sigma ≠ 0) : lowGain sigma < 1 := by
  unfold lowGain
  rw [Real.exp_lt_one_iff]
  have : 0 < 1 / (8 * sigma ^ 2) := by positivity
  linarith

/-! ### C91 -/

/-- **C91** Every pixel is corrected by the change that sorting makes to the low-pass part of its
column: its low-pass value is replaced by the filtered value of the same rank. -/
theorem rs_filter_value (ag : Argsort ℝ) (nrow ncol pad : Nat) (w : Nat → ℝ) (size dim : Nat)
    (X : Nat → Nat → ℝ) (i : Nat) :
    ∃ ρ : Nat → Nat, (∀ t < nrow, ρ t < nrow) ∧ (∀ t < nrow, ∀ t' < nrow, ρ t = ρ t' → t = t') ∧
      ∀ t < nrow, IsRank (column nrow (fun t i => smoothColumn nrow pad w (fun t => X t i) t) i) (ρ t)
          (smoothColumn nrow pad w (fun t => X t i) t) ∧
        rsFilterFft ag nrow ncol pad w size dim X t i - X t i =
          rsFilter nrow ncol size dim (sortedImage nrow fun t i => smoothColumn nrow pad w (fun t => X t i) t)
            i (ρ t) - smoothColumn nrow pad w (fun t => X t i) t := by
  obtain ⟨ρ, h1, h2, h3⟩ := rs_sort_value ag (rsFilter nrow ncol size dim) nrow
    (fun t i => smoothColumn nrow pad w (fun t => X t i) t)
    (fun S S' hS i r hr => rsFilter_local nrow ncol size dim S S' hS i r hr) i
  refine ⟨ρ, h1, h2, fun t ht => ⟨(h3 t ht).1, ?_⟩⟩
  unfold rsFilterFft
  simp only
  unfold rsSort
  rw [(h3 t ht).2.2]
  ring

/-- **C91** An ideal stripe.  Column `i` is `a u + b` with `a > 0`, and all but a minority of the
columns in its filter window equal `u`.  With an even number of angles the corrected column is `u`
plus the high-pass part of the gain error, plus the share `1 - exp (-1 / (8 sigma²))` of the offset. -/
theorem rs_filter_stripe (ag : Argsort ℝ) {nrow ncol size : Nat} (hs : 1 ≤ size) (hn : 0 < nrow)
    (he : Even nrow) {sigma : ℝ} {X : Nat → Nat → ℝ} {i : Nat} {u : Nat → ℝ} {a b : ℝ} (ha : 0 < a)
    (hcol : ∀ t < nrow, X t i = a * u t + b)
    (hmaj : (windowCols ncol size i).countP (fun c => decide (¬ ∀ t < nrow, X t c = u t)) ≤ (size - 1) / 2) :
    ∀ t < nrow, rsFilterFft ag nrow ncol (filterPad nrow)
        (gaussWindow (nrow + 2 * filterPad nrow) sigma) size 1 X t i =
      u t + (a - 1) * (u t - smoothColumn nrow (filterPad nrow)
        (gaussWindow (nrow + 2 * filterPad nrow) sigma) u t) + (1 - lowGain sigma) * b := by
  intro t ht
  have hp := filterPad_lt hn
  set w := gaussWindow (nrow + 2 * filterPad nrow) sigma with hw
  have hS : ∀ t < nrow, smoothColumn nrow (filterPad nrow) w (fun t => X t i) t =
      a * smoothColumn nrow (filterPad nrow) w u t + b * lowGain sigma := by
    intro t _
    rw [smooth_congr hp (y := fun t => a * u t + b * 1) (fun t ht => by rw [hcol t ht, mul_one]),
      smooth_linear, smooth_const hn he, hw, gaussWindow_middle he, one_mul]
  have key := rs_sort_removes_stripe ag nrow ncol size hs
    (fun t i => smoothColumn nrow (filterPad nrow) w (fun t => X t i) t) i
    (fun t => smoothColumn nrow (filterPad nrow) w u t) a (b * lowGain sigma) ha hS (by
      refine le_trans (List.countP_mono_left fun c _ hc => ?_) hmaj
      simp only [decide_eq_true_eq] at hc ⊢
      intro hp'
      refine hc ?_
      have : column nrow (fun t i => smoothColumn nrow (filterPad nrow) w (fun t => X t i) t) c =
          (List.range nrow).map fun t => smoothColumn nrow (filterPad nrow) w u t := by
        unfold column
        exact List.map_congr_left fun t _ => smooth_congr hp hp' t
      rw [this]) t ht
  unfold rsFilterFft
  simp only
  rw [key, hS t ht, hcol t ht]
  ring

/-- **C91** With the one-dimensional filter a sinogram whose columns are all equal is returned
unchanged, for every number of angles. -/
theorem rs_filter_no_stripes (ag : Argsort ℝ) {nrow ncol size : Nat} (hs : 1 ≤ size) (hn : 0 < nrow)
    (hc : 0 < ncol) (w : Nat → ℝ) {X : Nat → Nat → ℝ} {u : Nat → ℝ}
    (hX : ∀ t < nrow, ∀ i < ncol, X t i = u t) :
    ∀ t < nrow, ∀ i < ncol, rsFilterFft ag nrow ncol (filterPad nrow) w size 1 X t i = X t i := by
  intro t ht i hi
  have hp := filterPad_lt hn
  have hcol : ∀ c < ncol, ∀ t, smoothColumn nrow (filterPad nrow) w (fun t => X t c) t =
      smoothColumn nrow (filterPad nrow) w u t := fun c hc t => smooth_congr hp (fun t ht => hX t ht c hc) t
  have key := rs_sort_removes_stripe ag nrow ncol size hs
    (fun t i => smoothColumn nrow (filterPad nrow) w (fun t => X t i) t) i
    (fun t => smoothColumn nrow (filterPad nrow) w u t) 1 0 one_pos
    (fun t _ => by rw [hcol i hi]; ring) (by
      rw [List.countP_eq_zero.2]
      · omega
      · intro c hc'
        simp only [decide_eq_true_eq, not_not]
        have hlt : c < ncol := by
          unfold windowCols at hc'
          obtain ⟨a, _, rfl⟩ := List.mem_map.1 hc'
          exact reflect_lt hc _
        unfold column
        exact List.Perm.of_eq (List.map_congr_left fun t _ => hcol c hlt t)) t ht
  unfold rsFilterFft
  simp only
  rw [key, hcol i hi]
  ring

/-- **C91** (what is false) An offset stripe never disappears: with an even number of angles the
share `1 - exp (-1 / (8 sigma²)) > 0` of the offset stays, because the window is centred half a
sample away from frequency zero. -/
theorem rs_filter_offset_remains (ag : Argsort ℝ) {nrow ncol size : Nat} (hs : 1 ≤ size) (hn : 0 < nrow)
    (he : Even nrow) {sigma : ℝ} (hsig : sigma ≠ 0) {X : Nat → Nat → ℝ} {i : Nat} {u : Nat → ℝ} {b : ℝ}
    (hb : b ≠ 0) (hcol : ∀ t < nrow, X t i = u t + b)
    (hmaj : (windowCols ncol size i).countP (fun c => decide (¬ ∀ t < nrow, X t c = u t)) ≤ (size - 1) / 2) :
    ∀ t < nrow, rsFilterFft ag nrow ncol (filterPad nrow)
        (gaussWindow (nrow + 2 * filterPad nrow) sigma) size 1 X t i = u t + (1 - lowGain sigma) * b ∧
      rsFilterFft ag nrow ncol (filterPad nrow)
        (gaussWindow (nrow + 2 * filterPad nrow) sigma) size 1 X t i ≠ u t := by
  intro t ht
  have h := rs_filter_stripe ag (sigma := sigma) hs hn he (a := 1) one_pos
    (fun t ht => by rw [hcol t ht, one_mul]) hmaj t ht
  rw [sub_self, zero_mul, add_zero] at h
  refine ⟨h, ?_⟩
  rw [h]
  intro e
  have hg := lowGain_lt_one hsig
  have : (1 - lowGain sigma) * b ≠ 0 := mul_ne_zero (by linarith) hb
  exact this (by linarith)

/-- Two angles and three columns, the middle one raised by 1: the hypotheses hold. -/
example : ∀ t < 2, rsFilterFft (argsortUp) 2 3 (filterPad 2) (gaussWindow (2 + 2 * filterPad 2) 3) 3 1
    (fun t i => (t : ℝ) + if i = 1 then 1 else 0) t 1 = (t : ℝ) + (1 - lowGain 3) * 1 := fun t ht =>
  (rs_filter_offset_remains argsortUp (u := fun t : Nat => (t : ℝ)) (b := 1) (i := 1) (by norm_num) (by norm_num)
    ⟨1, rfl⟩ (by norm_num) one_ne_zero (fun t _ => by simp) (by
      have e : windowCols 3 3 1 = [0, 1, 2] := by decide
      rw [e]
      simp only [List.countP_cons, List.countP_nil]
      norm_num
      split_ifs <;> norm_num) t ht).1

/-- **C91** For every number of cores, chunk size and schedule, every slice of the result is
`_rs_filter` of that slice. -/
theorem rs_filter_distributed (ag : Argsort ℝ) (cpu : Nat) (debug : Bool) (n nrow ncol dim : Nat)
    (sigma : ℝ) (size ncore nchunk : Option Nat) (m m' : Mproc.Cell → Nat → Nat → ℝ) (res : Mproc.Buf)
    (h : Mproc.DistributeJobs cpu debug
      ⟨n, [0], none, fun _ => false, removeStripeBasedFiltering ag nrow ncol sigma size dim, ncore, nchunk,
        fun _ => false⟩ (fun _ => false) m m' res) :
    ∀ s < n, m' (res, s) = rsFilterFft ag nrow ncol (filterPad nrow)
      (gaussWindow (nrow + 2 * filterPad nrow) sigma) (rsSize ncol size) dim (m (.caller 0, s)) := by
  intro s hs
  have hf : Mproc.InPlaceSlicewise (removeStripeBasedFiltering ag nrow ncol sigma size dim)
      (fun row => row.map (rsFilterFft ag nrow ncol (filterPad nrow)
        (gaussWindow (nrow + 2 * filterPad nrow) sigma) (rsSize ncol size) dim)) :=
    ⟨fun _ => rfl, fun _ => rfl, fun _ => List.length_map ..⟩
  have key := Mproc.inplace_result_partial hf (by simp) (by simp) rfl h s hs
  simpa using key

/-! ### The two-dimensional window -/

/-- Five angles and one column with the values 0, 1, 2, 3, 4. -/
def rampSino : Nat → Nat → ℚ := fun t _ => t

/-- **C91** (what is false) With `dim = 2` a sinogram without stripes is changed: the smallest and the
largest value of every column are pulled inwards, since the window of a 5 x 5 median is mirrored at
the ends of the sorted columns. -/
theorem rs_sort_window2_changes :
    rsSort argsortUp 5 1 5 2 rampSino 0 0 = 1 ∧ rsSort argsortUp 5 1 5 2 rampSino 4 0 = 3 := by
  decide +kernel

end

end Tomopy.Stripe
