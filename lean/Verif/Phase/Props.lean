import Verif.Phase.Model
import Verif.Mproc.Props
import Mathlib.Algebra.Field.GeomSum
import Mathlib.Algebra.BigOperators.Field
import Mathlib.Tactic.Ring
import Mathlib.Tactic.FieldSimp
import Mathlib.Tactic.Linarith
import Mathlib.Tactic.IntervalCases

/-! C46: which frame phase retrieval filters; C75: how it treats the mean and constant
projections. -/

namespace Tomopy.Phase

noncomputable section

/-! ### Specification -/

/-- The pixel of a projection of length `n` nearest to position `i - p`. -/
def nearest (p n i : Nat) : Nat := min (i - p) (n - 1)

/-- The projection in the middle of a frame with margins `px`, `py`, continued by its border
pixels. -/
def extended (px py dy dz : Nat) (t : Frame) : Frame := fun r c =>
  t (nearest px dy r) (nearest py dz c)

/-! ### The frame (C46) -/

/-- The row of the projection that ends up in row `i` of the work array. -/
def ext (p n i : Nat) : Nat := if p = 0 then n - 1 else nearest p n i

theorem embed_eq (px py dy dz : Nat) (hy : 0 < dy) (hz : 0 < dz) (prj t : Frame) (r c : Nat)
    (hr : r < dy + 2 * px) (hc : c < dz + 2 * py) :
    embed px py dy dz prj t r c = t (ext px dy r) (ext py dz c) := by
  have hs : ∀ n p : Nat, sliceFrom (n + 2 * p) (-(p : Int)) = if p = 0 then 0 else n + p := by
    intro n p
    unfold sliceFrom
    split_ifs <;> omega
  have e : embed px py dy dz prj t r c = setBlock px py dy dz prj t
      (let a := if (if px = 0 then 0 else dy + px) ≤ r then dy + 2 * px - px - 1 else r
       if a < px then px else a)
      (let b := if (if py = 0 then 0 else dz + py) ≤ c then dz + 2 * py - py - 1 else c
       if b < py then py else b) := by
    unfold embed fillRight fillLeft fillBottom fillTop
    simp only [hs]
    generalize (if px = 0 then 0 else dy + px) = A
    generalize (if py = 0 then 0 else dz + py) = B
    by_cases h1 : B ≤ c <;> by_cases h2 : A ≤ r <;> simp only [h1, h2, if_true, if_false] <;>
      (repeat' split) <;> rfl
  rw [e]
  dsimp only
  unfold setBlock ext nearest
  have key : ∀ n p i : Nat, 0 < n → i < n + 2 * p →
      p ≤ (if (if (if p = 0 then 0 else n + p) ≤ i then n + 2 * p - p - 1 else i) < p then p
        else (if (if p = 0 then 0 else n + p) ≤ i then n + 2 * p - p - 1 else i)) ∧
      (if (if (if p = 0 then 0 else n + p) ≤ i then n + 2 * p - p - 1 else i) < p then p
        else (if (if p = 0 then 0 else n + p) ≤ i then n + 2 * p - p - 1 else i)) < n + p ∧
      (if (if (if p = 0 then 0 else n + p) ≤ i then n + 2 * p - p - 1 else i) < p then p
        else (if (if p = 0 then 0 else n + p) ≤ i then n + 2 * p - p - 1 else i)) - p
        = if p = 0 then n - 1 else min (i - p) (n - 1) := by
    intro n p i hn hi
    by_cases hp : p = 0
    · subst hp; simp; omega
    · simp only [hp, if_false]
      (repeat' split) <;> omega
  obtain ⟨a1, a2, a3⟩ := key dy px r hy hr
  obtain ⟨b1, b2, b3⟩ := key dz py c hz hc
  rw [if_pos ⟨a1, a2, b1, b2⟩, a3, b3]

/-- **C46** (frame).  With margins of at least one pixel the frame that is filtered is the
projection in the middle, continued by its border pixels, whatever the work array contained. -/
theorem embed_extended_partial (px py dy dz : Nat) (hy : 0 < dy) (hz : 0 < dz) (hpx : 0 < px)
    (hpy : 0 < py) (prj t : Frame) (r c : Nat) (hr : r < dy + 2 * px) (hc : c < dz + 2 * py) :
    embed px py dy dz prj t r c = extended px py dy dz t r c := by
  rw [embed_eq px py dy dz hy hz prj t r c hr hc]
  unfold ext extended
  rw [if_neg (by omega), if_neg (by omega)]

/-- In the middle of the extended frame is the projection. -/
theorem extended_middle (px py dy dz : Nat) (t : Frame) (r c : Nat) (hr : r < dy) (hc : c < dz) :
    extended px py dy dz t (r + px) (c + py) = t r c := by
  unfold extended nearest
  rw [show min (r + px - px) (dy - 1) = r by omega, show min (c + py - py) (dz - 1) = c by omega]

theorem applyFilter_congr (h w : Nat) (g f f' : Frame)
    (hf : ∀ r < h, ∀ c < w, f r c = f' r c) : applyFilter h w g f = applyFilter h w g f' := by
  have : ∀ u v, fft2 h w (fun r c => (f r c : ℂ)) u v = fft2 h w (fun r c => (f' r c : ℂ)) u v := by
    intro u v
    unfold fft2
    refine Finset.sum_congr rfl fun r hr => Finset.sum_congr rfl fun c hc => ?_
    have e := hf r (Finset.mem_range.1 hr) c (Finset.mem_range.1 hc)
    simp only [e]
  funext r c
  unfold applyFilter
  simp only [this]

/-- The projection after filtering, as a function of the projection only. -/
def phaseResult (px py dy dz : Nat) (g t : Frame) : Frame := fun r c =>
  applyFilter (dy + 2 * px) (dz + 2 * py) g (fun r c => t (ext px dy r) (ext py dz c)) (r + px)
    (c + py)

theorem phaseOne_result (px py dy dz : Nat) (hy : 0 < dy) (hz : 0 < dz) (g prj t : Frame) :
    (phaseOne px py dy dz g prj t).2 = phaseResult px py dy dz g t := by
  unfold phaseOne phaseResult
  dsimp only
  rw [applyFilter_congr _ _ g _ _ fun r hr c hc => embed_eq px py dy dz hy hz prj t r c hr hc]

theorem retrieveChunk_map (px py dy dz : Nat) (hy : 0 < dy) (hz : 0 < dz) (g : Frame) :
    ∀ (rows : List (List Frame)) (prj : Frame), retrieveChunk px py dy dz g prj rows
      = rows.map fun row => row.modifyHead (phaseResult px py dy dz g) := by
  intro rows
  induction rows with
  | nil => intro _; rfl
  | cons row rows ih =>
    intro prj
    cases row with
    | nil => simp [retrieveChunk, ih]
    | cons t ts => simp [retrieveChunk, ih, phaseOne_result px py dy dz hy hz]

/-- The normalised gains that `retrieve_phase` uses. -/
def gains (dy dz : Nat) (pixel dist energy alpha : ℝ) (pad : Bool) : Frame :=
  normalized (dy + 2 * (calcPad dy dz pixel dist energy pad).1)
    (dz + 2 * (calcPad dy dz pixel dist energy pad).2)
    (phaseFilter pixel dist energy alpha (dy + 2 * (calcPad dy dz pixel dist energy pad).1)
      (dz + 2 * (calcPad dy dz pixel dist energy pad).2))

theorem retrieve_distributed (cpu : Nat) (debug : Bool) (n dy dz : Nat) (hy : 0 < dy) (hz : 0 < dz)
    (pixel dist energy alpha val : ℝ) (pad : Bool) (ncore nchunk : Option Nat)
    (m m' : Mproc.Cell → Frame) (res : Mproc.Buf)
    (h : Mproc.DistributeJobs cpu debug
      ⟨n, [0], none, fun _ => false, retrievePhase dy dz pixel dist energy alpha val pad, ncore,
        nchunk, fun _ => false⟩ (fun _ => false) m m' res) :
    ∀ s < n, m' (res, s) = phaseResult (calcPad dy dz pixel dist energy pad).1
      (calcPad dy dz pixel dist energy pad).2 dy dz (gains dy dz pixel dist energy alpha pad)
      (m (.caller 0, s)) := by
  intro s hs
  have hf : Mproc.InPlaceSlicewise (retrievePhase dy dz pixel dist energy alpha val pad)
      (fun row => row.modifyHead (phaseResult (calcPad dy dz pixel dist energy pad).1
        (calcPad dy dz pixel dist energy pad).2 dy dz (gains dy dz pixel dist energy alpha pad))) :=
    ⟨fun rows => retrieveChunk_map _ _ dy dz hy hz _ rows _, fun _ => rfl,
      fun row => List.length_modifyHead⟩
  have key := Mproc.inplace_result_partial hf (by simp) (by simp) rfl h s hs
  simpa using key

/-! ### Pad widths -/

theorem padWidth_even (dim pp : Nat) (hd : 0 < dim) (hp : 0 < pp) (he : dim % 2 = 0) :
    dim + 2 * padWidth dim pp = 2 ^ Nat.clog 2 (dim + pp) ∧ 0 < padWidth dim pp := by
  have h1 : dim + pp ≤ 2 ^ Nat.clog 2 (dim + pp) := Nat.le_pow_clog (by norm_num) _
  have h2 : 0 < Nat.clog 2 (dim + pp) := Nat.clog_pos (by norm_num) (by omega)
  obtain ⟨k, hk⟩ : ∃ k, Nat.clog 2 (dim + pp) = k + 1 := ⟨_, (Nat.succ_pred_eq_of_pos h2).symm⟩
  unfold padWidth
  rw [hk, pow_succ] at h1 ⊢
  omega

theorem padWidth_odd (dim pp : Nat) (hp : 0 < pp) (he : dim % 2 = 1) :
    dim + 2 * padWidth dim pp = 2 ^ Nat.clog 2 (dim + pp) - 1 := by
  have h1 : dim + pp ≤ 2 ^ Nat.clog 2 (dim + pp) := Nat.le_pow_clog (by norm_num) _
  have h2 : 0 < Nat.clog 2 (dim + pp) := Nat.clog_pos (by norm_num) (by omega)
  obtain ⟨k, hk⟩ : ∃ k, Nat.clog 2 (dim + pp) = k + 1 := ⟨_, (Nat.succ_pred_eq_of_pos h2).symm⟩
  unfold padWidth
  rw [hk, pow_succ] at h1 ⊢
  omega

theorem padWidth_pos (dim pp : Nat) (hp : 2 ≤ pp) : 0 < padWidth dim pp := by
  have h1 : dim + pp ≤ 2 ^ Nat.clog 2 (dim + pp) := Nat.le_pow_clog (by norm_num) _
  unfold padWidth
  omega

/-- Detectors with `2 ^ k - 1` rows and a pad amount of one pixel get no padding. -/
theorem padWidth_zero : padWidth 7 1 = 0 ∧ padWidth 2047 1 = 0 := by
  have h1 : Nat.clog 2 (7 + 1) = 3 := by rw [show 7 + 1 = 2 ^ 3 by norm_num, Nat.clog_pow]; norm_num
  have h2 : Nat.clog 2 (2047 + 1) = 11 := by
    rw [show 2047 + 1 = 2 ^ 11 by norm_num, Nat.clog_pow]; norm_num
  unfold padWidth
  rw [h1, h2]
  norm_num

theorem wavelength_pos (energy : ℝ) (he : 0 < energy) : 0 < wavelength energy := by
  unfold wavelength PI planck lightSpeed
  positivity

theorem padPix_pos (pixel dist energy : ℝ) (hp : 0 < pixel) (hd : 0 < dist) (he : 0 < energy) :
    0 < padPix pixel (wavelength energy) dist := by
  unfold padPix
  have := wavelength_pos energy he
  rw [Nat.ceil_pos]
  have : (0 : ℝ) < PI := by unfold PI; norm_num
  positivity

/-- **C46**.  `retrieve_phase` with padding on projections with even numbers of rows and columns:
for every number of cores, chunk size and schedule, every projection of the result is the middle
of the filtered frame, and the frame is the projection continued by its border pixels to a power of
two in both directions. -/
theorem retrieve_phase_padded_partial (cpu : Nat) (debug : Bool) (n dy dz : Nat) (hy : 0 < dy)
    (hz : 0 < dz) (ey : dy % 2 = 0) (ez : dz % 2 = 0) (pixel dist energy alpha val : ℝ)
    (hp : 0 < pixel) (hd : 0 < dist) (he : 0 < energy) (ncore nchunk : Option Nat)
    (m m' : Mproc.Cell → Frame) (res : Mproc.Buf)
    (h : Mproc.DistributeJobs cpu debug
      ⟨n, [0], none, fun _ => false, retrievePhase dy dz pixel dist energy alpha val true, ncore,
        nchunk, fun _ => false⟩ (fun _ => false) m m' res) :
    ∃ px py k l, dy + 2 * px = 2 ^ k ∧ dz + 2 * py = 2 ^ l ∧ 0 < px ∧ 0 < py ∧ ∀ s < n, ∀ r c,
      m' (res, s) r c = applyFilter (2 ^ k) (2 ^ l)
        (normalized (2 ^ k) (2 ^ l) (phaseFilter pixel dist energy alpha (2 ^ k) (2 ^ l)))
        (extended px py dy dz (m (.caller 0, s))) (r + px) (c + py) := by
  have hpp := padPix_pos pixel dist energy hp hd he
  obtain ⟨h1, h2⟩ := padWidth_even dy _ hy hpp ey
  obtain ⟨h3, h4⟩ := padWidth_even dz _ hz hpp ez
  refine ⟨_, _, _, _, h1, h3, h2, h4, ?_⟩
  intro s hs r c
  rw [retrieve_distributed cpu debug n dy dz hy hz pixel dist energy alpha val true ncore nchunk m m'
    res h s hs]
  unfold phaseResult gains
  have e : calcPad dy dz pixel dist energy true
      = (padWidth dy (padPix pixel (wavelength energy) dist),
        padWidth dz (padPix pixel (wavelength energy) dist)) := rfl
  rw [e]
  dsimp only
  rw [h1, h3]
  have n1 := h2.ne'
  have n2 := h4.ne'
  simp only [ext, n1, n2, if_false]
  rfl

/-! ### Fourier sums -/

theorem rot_zero (n : Nat) : rot n 0 = 1 := by simp [rot]

theorem rot_pow (n : Nat) (k : Int) (r : Nat) : rot n k ^ r = rot n (r * k) := by
  unfold rot
  rw [← Complex.exp_nat_mul]
  congr 1
  push_cast
  ring

theorem rot_eq_one (n : Nat) (hn : 0 < n) (k : Int) : rot n k = 1 ↔ (n : Int) ∣ k := by
  unfold rot
  rw [Complex.exp_eq_one_iff]
  have hn' : (n : ℂ) ≠ 0 := by exact_mod_cast hn.ne'
  constructor
  · rintro ⟨j, hj⟩
    refine ⟨j, ?_⟩
    have h2 : (2 * Real.pi * Complex.I : ℂ) ≠ 0 := Complex.two_pi_I_ne_zero
    have h3 : (2 * Real.pi * Complex.I : ℂ) * k = (2 * Real.pi * Complex.I) * (n * j) := by
      field_simp at hj
      linear_combination (2 * Real.pi * Complex.I : ℂ) * hj
    have h4 := mul_left_cancel₀ h2 h3
    exact_mod_cast h4
  · rintro ⟨j, rfl⟩
    refine ⟨j, ?_⟩
    push_cast
    field_simp

theorem sum_rot (n : Nat) (hn : 0 < n) (k : Int) :
    ∑ r ∈ Finset.range n, rot n (r * k) = if (n : Int) ∣ k then (n : ℂ) else 0 := by
  simp only [← rot_pow]
  split_ifs with h
  · rw [(rot_eq_one n hn k).2 h]
    simp
  · have h1 : rot n k ≠ 1 := fun h' => h ((rot_eq_one n hn k).1 h')
    rw [geom_sum_eq h1, rot_pow, (rot_eq_one n hn (n * k)).2 (Dvd.intro _ rfl), sub_self, zero_div]

theorem dvd_small (n u : Nat) (hu : u < n) : (n : Int) ∣ (u : Int) ↔ u = 0 := by
  rw [Int.natCast_dvd_natCast]
  constructor
  · intro h
    by_contra h0
    exact absurd (Nat.le_of_dvd (by omega) h) (by omega)
  · rintro rfl
    exact dvd_zero n

theorem fft2_zero (h w : Nat) (f : Nat → Nat → ℂ) :
    fft2 h w f 0 0 = ∑ r ∈ Finset.range h, ∑ c ∈ Finset.range w, f r c := by
  unfold fft2
  refine Finset.sum_congr rfl fun r _ => Finset.sum_congr rfl fun c _ => ?_
  simp [rot_zero]

theorem fft2_const (h w : Nat) (hh : 0 < h) (hw : 0 < w) (v : ℂ) (a b : Nat) (ha : a < h)
    (hb : b < w) :
    fft2 h w (fun _ _ => v) a b = if a = 0 ∧ b = 0 then v * (h * w) else 0 := by
  unfold fft2
  have e : ∀ r c : Nat, v * (rot h (-(r * a)) * rot w (-(c * b)))
      = v * rot h (r * (-(a : Int))) * rot w (c * (-(b : Int))) := by
    intro r c
    rw [mul_neg, mul_neg]
    ring
  simp only [e, ← Finset.mul_sum, ← Finset.sum_mul]
  rw [sum_rot h hh, sum_rot w hw]
  simp only [dvd_neg, dvd_small h a ha, dvd_small w b hb]
  by_cases h1 : a = 0 <;> by_cases h2 : b = 0 <;> simp [h1, h2]
  ring

theorem sum_ifft2 (h w : Nat) (hh : 0 < h) (hw : 0 < w) (y : Nat → Nat → ℂ) :
    ∑ r ∈ Finset.range h, ∑ c ∈ Finset.range w, ifft2 h w y r c = y 0 0 := by
  have hne : ((h : ℂ) * w) ≠ 0 := by
    exact_mod_cast (Nat.mul_pos hh hw).ne'
  have e : ∑ r ∈ Finset.range h, ∑ c ∈ Finset.range w, ifft2 h w y r c
      = (∑ u ∈ Finset.range h, ∑ v ∈ Finset.range w, y u v *
        ((∑ r ∈ Finset.range h, rot h (r * u)) * (∑ c ∈ Finset.range w, rot w (c * v)))) / (h * w) := by
    unfold ifft2
    simp only [← Finset.sum_div]
    congr 1
    calc ∑ r ∈ Finset.range h, ∑ c ∈ Finset.range w, ∑ u ∈ Finset.range h, ∑ v ∈ Finset.range w,
          y u v * (rot h (r * u) * rot w (c * v))
        = ∑ r ∈ Finset.range h, ∑ u ∈ Finset.range h, ∑ c ∈ Finset.range w, ∑ v ∈ Finset.range w,
          y u v * (rot h (r * u) * rot w (c * v)) :=
            Finset.sum_congr rfl fun r _ => Finset.sum_comm
      _ = ∑ u ∈ Finset.range h, ∑ r ∈ Finset.range h, ∑ c ∈ Finset.range w, ∑ v ∈ Finset.range w,
          y u v * (rot h (r * u) * rot w (c * v)) := Finset.sum_comm
      _ = ∑ u ∈ Finset.range h, ∑ r ∈ Finset.range h, ∑ v ∈ Finset.range w, ∑ c ∈ Finset.range w,
          y u v * (rot h (r * u) * rot w (c * v)) :=
            Finset.sum_congr rfl fun u _ => Finset.sum_congr rfl fun r _ => Finset.sum_comm
      _ = ∑ u ∈ Finset.range h, ∑ v ∈ Finset.range w, ∑ r ∈ Finset.range h, ∑ c ∈ Finset.range w,
          y u v * (rot h (r * u) * rot w (c * v)) :=
            Finset.sum_congr rfl fun u _ => Finset.sum_comm
      _ = _ := by
        refine Finset.sum_congr rfl fun u _ => Finset.sum_congr rfl fun v _ => ?_
        rw [Finset.sum_mul_sum, Finset.mul_sum]
        exact Finset.sum_congr rfl fun r _ => by rw [Finset.mul_sum]
  rw [e]
  have e2 : ∑ u ∈ Finset.range h, ∑ v ∈ Finset.range w, y u v *
        ((∑ r ∈ Finset.range h, rot h (r * u)) * (∑ c ∈ Finset.range w, rot w (c * v)))
      = y 0 0 * (h * w) := by
    rw [Finset.sum_eq_single_of_mem 0 (Finset.mem_range.2 hh), Finset.sum_eq_single_of_mem 0
      (Finset.mem_range.2 hw)]
    · simp [rot_zero]
    · intro v hv h0
      rw [sum_rot w hw, if_neg (by rw [dvd_small w v (Finset.mem_range.1 hv)]; exact h0)]
      simp
    · intro u hu h0
      refine Finset.sum_eq_zero fun v _ => ?_
      rw [sum_rot h hh, if_neg (by rw [dvd_small h u (Finset.mem_range.1 hu)]; exact h0)]
      simp
  rw [e2, mul_div_assoc, div_self hne, mul_one]

/-! ### Mean and constants (C75) -/

/-- **C75** (mean).  The sum over the filtered frame is the sum over the frame times the gain at
frequency 0, for every frame and every filter. -/
theorem filter_sum (h w : Nat) (hh : 0 < h) (hw : 0 < w) (g f : Frame) :
    ∑ r ∈ Finset.range h, ∑ c ∈ Finset.range w, applyFilter h w g f r c
      = g 0 0 * ∑ r ∈ Finset.range h, ∑ c ∈ Finset.range w, f r c := by
  unfold applyFilter
  simp only [← Complex.re_sum]
  rw [sum_ifft2 h w hh hw, fft2_zero]
  have : (∑ r ∈ Finset.range h, ∑ c ∈ Finset.range w, ((f r c : ℝ) : ℂ)) * ((g 0 0 : ℝ) : ℂ)
      = ((g 0 0 * ∑ r ∈ Finset.range h, ∑ c ∈ Finset.range w, f r c : ℝ) : ℂ) := by
    push_cast
    ring
  rw [this, Complex.ofReal_re]

/-- **C75** (constants).  A constant frame is multiplied by the gain at frequency 0. -/
theorem filter_const (h w : Nat) (hh : 0 < h) (hw : 0 < w) (g : Frame) (v : ℝ) (r c : Nat) :
    applyFilter h w g (fun _ _ => v) r c = g 0 0 * v := by
  unfold applyFilter ifft2
  have hne : ((h : ℂ) * w) ≠ 0 := by exact_mod_cast (Nat.mul_pos hh hw).ne'
  have e : ∑ a ∈ Finset.range h, ∑ b ∈ Finset.range w,
      fft2 h w (fun _ _ => (v : ℂ)) a b * (g a b : ℂ) * (rot h (r * a) * rot w (c * b))
      = ((g 0 0 * v : ℝ) : ℂ) * (h * w) := by
    rw [Finset.sum_eq_single_of_mem 0 (Finset.mem_range.2 hh), Finset.sum_eq_single_of_mem 0
      (Finset.mem_range.2 hw)]
    · rw [fft2_const h w hh hw _ 0 0 hh hw]
      simp [rot_zero]
      ring
    · intro b hb h0
      rw [fft2_const h w hh hw _ 0 b hh (Finset.mem_range.1 hb), if_neg (by simp [h0])]
      simp
    · intro a ha h0
      refine Finset.sum_eq_zero fun b hb => ?_
      rw [fft2_const h w hh hw _ a b (Finset.mem_range.1 ha) (Finset.mem_range.1 hb),
        if_neg (by simp [h0])]
      simp
  rw [e, mul_div_assoc, div_self hne, mul_one, Complex.ofReal_re]

/-- **C75** (linearity). -/
theorem filter_linear (h w : Nat) (g f f' : Frame) (a b : ℝ) (r c : Nat) :
    applyFilter h w g (fun r c => a * f r c + b * f' r c) r c
      = a * applyFilter h w g f r c + b * applyFilter h w g f' r c := by
  have e1 : ∀ u v, fft2 h w (fun r c => ((a * f r c + b * f' r c : ℝ) : ℂ)) u v
      = a * fft2 h w (fun r c => (f r c : ℂ)) u v + b * fft2 h w (fun r c => (f' r c : ℂ)) u v := by
    intro u v
    unfold fft2
    simp only [Finset.mul_sum, ← Finset.sum_add_distrib]
    refine Finset.sum_congr rfl fun r _ => Finset.sum_congr rfl fun c _ => ?_
    push_cast
    ring
  have e2 : ifft2 h w (fun u v => fft2 h w (fun r c => ((a * f r c + b * f' r c : ℝ) : ℂ)) u v
        * (g u v : ℂ)) r c
      = a * ifft2 h w (fun u v => fft2 h w (fun r c => (f r c : ℂ)) u v * (g u v : ℂ)) r c
        + b * ifft2 h w (fun u v => fft2 h w (fun r c => (f' r c : ℂ)) u v * (g u v : ℂ)) r c := by
    unfold ifft2
    simp only [e1]
    rw [mul_div_assoc', mul_div_assoc', ← add_div]
    congr 1
    simp only [Finset.mul_sum, ← Finset.sum_add_distrib]
    refine Finset.sum_congr rfl fun r _ => Finset.sum_congr rfl fun c _ => ?_
    ring
  unfold applyFilter
  rw [e2, Complex.add_re, Complex.re_ofReal_mul, Complex.re_ofReal_mul]

/-! ### The gain at frequency 0 -/

theorem foldl_max_spec {α : Type} (step : ℝ → α → ℝ) (l : List α) (m : ℝ)
    (h1 : ∀ m a, m ≤ step m a) :
    m ≤ l.foldl step m ∧ ∀ b, (∀ a ∈ l, ∀ m, m ≤ b → step m a ≤ b) → m ≤ b → l.foldl step m ≤ b := by
  induction l generalizing m with
  | nil => exact ⟨le_rfl, fun b _ h => h⟩
  | cons x l ih =>
    rw [List.foldl_cons]
    obtain ⟨i1, i2⟩ := ih (step m x)
    exact ⟨(h1 m x).trans i1, fun b hb hm => i2 b (fun a ha => hb a (by simp [ha]))
      (hb x (by simp) m hm)⟩

theorem foldl_max_mem {α : Type} (step : ℝ → α → ℝ) (l : List α) (m v : ℝ) (a : α) (ha : a ∈ l)
    (h1 : ∀ m a, m ≤ step m a) (hv : ∀ m, v ≤ step m a) : v ≤ l.foldl step m := by
  induction l generalizing m with
  | nil => cases ha
  | cons x l ih =>
    rw [List.foldl_cons]
    rcases List.mem_cons.1 ha with rfl | h
    · exact (hv m).trans (foldl_max_spec step l _ h1).1
    · exact ih _ h

theorem le_maxOf (h w : Nat) (g : Frame) (i j : Nat) (hi : i < h) (hj : j < w) :
    g i j ≤ maxOf h w g := by
  unfold maxOf
  refine foldl_max_mem _ _ _ _ i (List.mem_range.2 hi) ?_ ?_
  · intro m a
    exact (foldl_max_spec _ _ _ fun m j => le_max_left _ _).1
  · intro m
    exact foldl_max_mem _ _ _ _ j (List.mem_range.2 hj) (fun m j => le_max_left _ _)
      fun m => le_max_right _ _

theorem maxOf_le (h w : Nat) (g : Frame) (b : ℝ) (h0 : g 0 0 ≤ b)
    (hb : ∀ i < h, ∀ j < w, g i j ≤ b) : maxOf h w g ≤ b := by
  unfold maxOf
  refine (foldl_max_spec _ _ _ fun m a =>
    (foldl_max_spec _ _ _ fun m j => le_max_left _ _).1).2 b ?_ h0
  intro i hi m hm
  refine (foldl_max_spec _ _ _ fun m j => le_max_left _ _).2 b ?_ hm
  intro j hj m hm
  exact max_le hm (hb i (List.mem_range.1 hi) j (List.mem_range.1 hj))

theorem shiftSrc_lt (n i : Nat) (hn : 0 < n) : shiftSrc n i < n := Nat.mod_lt _ hn

theorem paganin_anti (energy dist alpha : ℝ) (he : 0 < energy) (hd : 0 < dist) (ha : 0 < alpha)
    (x y : ℝ) (hx : 0 ≤ x) (hxy : x ≤ y) :
    paganin energy dist alpha y ≤ paganin energy dist alpha x ∧
    (x < y → paganin energy dist alpha y < paganin energy dist alpha x) := by
  unfold paganin
  have hw := wavelength_pos energy he
  have hP : (0 : ℝ) < PI := by unfold PI; norm_num
  have hk : 0 < wavelength energy * dist := mul_pos hw hd
  have hd0 : 0 < wavelength energy * dist * x / (4 * PI) + alpha := by positivity
  constructor
  · refine one_div_le_one_div_of_le hd0 ?_
    have : wavelength energy * dist * x / (4 * PI) ≤ wavelength energy * dist * y / (4 * PI) := by
      gcongr
    linarith
  · intro hlt
    refine one_div_lt_one_div_of_lt hd0 ?_
    have : wavelength energy * dist * x / (4 * PI) < wavelength energy * dist * y / (4 * PI) := by
      gcongr
    linarith

theorem paganin_pos (energy dist alpha : ℝ) (he : 0 < energy) (hd : 0 < dist) (ha : 0 < alpha)
    (x : ℝ) (hx : 0 ≤ x) : 0 < paganin energy dist alpha x := by
  unfold paganin
  have hw := wavelength_pos energy he
  have hP : (0 : ℝ) < PI := by unfold PI; norm_num
  positivity

theorem rcoord_even_min (pixel : ℝ) (n i : Nat) (hn : 0 < n) (he : n % 2 = 0) :
    rcoord pixel n (shiftSrc n 0) ^ 2 ≤ rcoord pixel n i ^ 2 := by
  have e : shiftSrc n 0 = n / 2 := by
    unfold shiftSrc
    rw [Nat.mod_eq_of_lt (by omega)]
    omega
  unfold rcoord
  rw [e, mul_pow, mul_pow]
  refine mul_le_mul_of_nonneg_right ?_ (sq_nonneg _)
  obtain ⟨k, rfl⟩ : ∃ k, n = 2 * k := ⟨n / 2, by omega⟩
  have e2 : (2 * k / 2 : Nat) = k := by omega
  rw [e2]
  have h1 : (-(((2 * k : Nat) : ℝ) - 1) + 2 * (k : ℝ)) ^ 2 = 1 := by push_cast; ring
  rw [h1]
  have h2 : (-(((2 * k : Nat) : ℝ) - 1) + 2 * (i : ℝ)) = ((2 * ((i : Int) - k) + 1 : Int) : ℝ) := by
    push_cast; ring
  rw [h2]
  have h3 : (1 : Int) ≤ (2 * ((i : Int) - k) + 1) ^ 2 := by
    have hne : (2 * ((i : Int) - k) + 1) ≠ 0 := by omega
    have := sq_nonneg (2 * ((i : Int) - k) + 1)
    have := pow_ne_zero 2 hne
    omega
  exact_mod_cast h3

/-- **C75** (even sizes).  For frames with even numbers of rows and columns — which is what padding
produces from even sizes — the gain at frequency 0 is 1. -/
theorem gain_even_partial (pixel dist energy alpha : ℝ) (he : 0 < energy) (hd : 0 < dist)
    (ha : 0 < alpha) (h w : Nat) (hh : 0 < h) (hw : 0 < w) (eh : h % 2 = 0) (ew : w % 2 = 0) :
    normalized h w (phaseFilter pixel dist energy alpha h w) 0 0 = 1 := by
  have hpos : ∀ i j, 0 ≤ w2 pixel h w i j := fun i j => add_nonneg (sq_nonneg _) (sq_nonneg _)
  have hmax : maxOf h w (phaseFilter pixel dist energy alpha h w)
      = phaseFilter pixel dist energy alpha h w 0 0 := by
    refine le_antisymm (maxOf_le h w _ _ le_rfl ?_) (le_maxOf h w _ 0 0 hh hw)
    intro i hi j hj
    unfold phaseFilter
    refine (paganin_anti energy dist alpha he hd ha _ _ (hpos _ _) ?_).1
    exact add_le_add (rcoord_even_min pixel h _ hh eh) (rcoord_even_min pixel w _ hw ew)
  unfold normalized
  rw [hmax]
  exact div_self (paganin_pos energy dist alpha he hd ha _ (hpos _ _)).ne'

theorem rcoord_odd (pixel : ℝ) (hp : 0 < pixel) (n : Nat) (hn : 3 ≤ n) (ho : n % 2 = 1) :
    rcoord pixel n (shiftSrc n (n - 1)) ^ 2 < rcoord pixel n (shiftSrc n 0) ^ 2 := by
  obtain ⟨k, rfl⟩ : ∃ k, n = 2 * k + 1 := ⟨n / 2, by omega⟩
  have e0 : shiftSrc (2 * k + 1) 0 = k + 1 := by
    unfold shiftSrc
    rw [Nat.mod_eq_of_lt (by omega)]
    omega
  have e1 : shiftSrc (2 * k + 1) (2 * k + 1 - 1) = k := by
    unfold shiftSrc
    have : 2 * k + 1 - 1 + (2 * k + 1 - (2 * k + 1) / 2) = k + (2 * k + 1) := by omega
    rw [this, Nat.add_mod_right, Nat.mod_eq_of_lt (by omega)]
  have hk : (1 : ℝ) ≤ k := by
    have : 1 ≤ k := by omega
    exact_mod_cast this
  unfold rcoord
  rw [e0, e1]
  have h1 : (-(((2 * k + 1 : Nat) : ℝ) - 1) + 2 * (k : ℝ)) = 0 := by push_cast; ring
  have h2 : (-(((2 * k + 1 : Nat) : ℝ) - 1) + 2 * ((k + 1 : Nat) : ℝ)) = 2 := by push_cast; ring
  have h3 : (((2 * k + 1 : Nat) : ℝ) - 1) = 2 * k := by push_cast; ring
  rw [h1, h2, h3]
  have : 0 < 1 / 2 / (2 * (k : ℝ) * pixel) := by positivity
  have h4 : 0 < (2 * (1 / 2 / (2 * (k : ℝ) * pixel))) ^ 2 := by positivity
  simpa using h4

/-- **C75** (odd sizes).  If the number of rows or of columns of the frame is odd, the origin of
frequencies is misplaced by `fftshift` and the gain at frequency 0 is less than 1. -/
theorem gain_odd_lt_one (pixel dist energy alpha : ℝ) (hp : 0 < pixel) (he : 0 < energy)
    (hd : 0 < dist) (ha : 0 < alpha) (h w : Nat) (hh : 0 < h) (hw : 0 < w)
    (ho : (3 ≤ h ∧ h % 2 = 1) ∨ (3 ≤ w ∧ w % 2 = 1)) :
    0 < normalized h w (phaseFilter pixel dist energy alpha h w) 0 0 ∧
    normalized h w (phaseFilter pixel dist energy alpha h w) 0 0 < 1 := by
  have hpos : ∀ i j, 0 ≤ w2 pixel h w i j := fun i j => add_nonneg (sq_nonneg _) (sq_nonneg _)
  have hgpos : ∀ i j, 0 < phaseFilter pixel dist energy alpha h w i j := fun i j =>
    paganin_pos energy dist alpha he hd ha _ (hpos _ _)
  have hlt : phaseFilter pixel dist energy alpha h w 0 0
      < maxOf h w (phaseFilter pixel dist energy alpha h w) := by
    rcases ho with ⟨h3, ho⟩ | ⟨h3, ho⟩
    · refine lt_of_lt_of_le ?_ (le_maxOf h w _ (h - 1) 0 (by omega) hw)
      unfold phaseFilter
      have hlt : w2 pixel h w (shiftSrc h (h - 1)) (shiftSrc w 0)
          < w2 pixel h w (shiftSrc h 0) (shiftSrc w 0) := by
        unfold w2
        have := rcoord_odd pixel hp h h3 ho
        linarith
      exact (paganin_anti energy dist alpha he hd ha _ _ (hpos _ _) hlt.le).2 hlt
    · refine lt_of_lt_of_le ?_ (le_maxOf h w _ 0 (w - 1) hh (by omega))
      unfold phaseFilter
      have hlt : w2 pixel h w (shiftSrc h 0) (shiftSrc w (w - 1))
          < w2 pixel h w (shiftSrc h 0) (shiftSrc w 0) := by
        unfold w2
        have := rcoord_odd pixel hp w h3 ho
        linarith
      exact (paganin_anti energy dist alpha he hd ha _ _ (hpos _ _) hlt.le).2 hlt
  have hm : 0 < maxOf h w (phaseFilter pixel dist energy alpha h w) := (hgpos 0 0).trans hlt
  unfold normalized
  exact ⟨div_pos (hgpos 0 0) hm, (div_lt_one hm).2 hlt⟩

/-! ### Results in terms of the call -/

/-- **C75**.  With padding and even sizes, a constant projection is returned unchanged. -/
theorem retrieve_phase_constant_partial (cpu : Nat) (debug : Bool) (n dy dz : Nat) (hy : 0 < dy)
    (hz : 0 < dz) (ey : dy % 2 = 0) (ez : dz % 2 = 0) (pixel dist energy alpha val : ℝ)
    (hp : 0 < pixel) (hd : 0 < dist) (he : 0 < energy) (ha : 0 < alpha) (ncore nchunk : Option Nat)
    (m m' : Mproc.Cell → Frame) (res : Mproc.Buf)
    (h : Mproc.DistributeJobs cpu debug
      ⟨n, [0], none, fun _ => false, retrievePhase dy dz pixel dist energy alpha val true, ncore,
        nchunk, fun _ => false⟩ (fun _ => false) m m' res)
    (s : Nat) (hs : s < n) (v : ℝ) (hv : ∀ r < dy, ∀ c < dz, m (.caller 0, s) r c = v) :
    ∀ r c, m' (res, s) r c = v := by
  obtain ⟨px, py, k, l, ek, el, hpx, hpy, hres⟩ := retrieve_phase_padded_partial cpu debug n dy dz
    hy hz ey ez pixel dist energy alpha val hp hd he ncore nchunk m m' res h
  intro r c
  have hk : 0 < 2 ^ k := by positivity
  have hl : 0 < 2 ^ l := by positivity
  rw [hres s hs r c, applyFilter_congr _ _ _ _ (fun _ _ => v) (by
    intro r' _ c' _
    unfold extended nearest
    exact hv _ (by omega) _ (by omega)), filter_const _ _ hk hl,
    gain_even_partial pixel dist energy alpha he hd ha _ _ hk hl (by omega) (by omega), one_mul]

/-- **C75** (refuted for odd sizes).  On projections with an odd number of rows and columns, padded
or not, constant projections come back multiplied by a factor below 1. -/
theorem retrieve_phase_constant_odd (cpu : Nat) (debug : Bool) (n dy dz : Nat) (hy : 3 ≤ dy)
    (hz : 0 < dz) (ey : dy % 2 = 1) (pixel dist energy alpha val : ℝ) (pad : Bool)
    (hp : 0 < pixel) (hd : 0 < dist) (he : 0 < energy) (ha : 0 < alpha) (ncore nchunk : Option Nat)
    (m m' : Mproc.Cell → Frame) (res : Mproc.Buf)
    (h : Mproc.DistributeJobs cpu debug
      ⟨n, [0], none, fun _ => false, retrievePhase dy dz pixel dist energy alpha val pad, ncore,
        nchunk, fun _ => false⟩ (fun _ => false) m m' res)
    (s : Nat) (hs : s < n) (v : ℝ) (hv0 : 0 < v)
    (hv : ∀ r < dy, ∀ c < dz, m (.caller 0, s) r c = v) :
    ∀ r c, m' (res, s) r c < v := by
  intro r c
  rw [retrieve_distributed cpu debug n dy dz (by omega) hz pixel dist energy alpha val pad ncore
    nchunk m m' res h s hs]
  unfold phaseResult
  rw [applyFilter_congr _ _ _ _ (fun _ _ => v) (by
    intro r' _ c' _
    unfold ext nearest
    refine hv _ ?_ _ ?_ <;> split_ifs <;> omega), filter_const _ _ (by omega) (by omega)]
  have hg := (gain_odd_lt_one pixel dist energy alpha hp he hd ha
    (dy + 2 * (calcPad dy dz pixel dist energy pad).1)
    (dz + 2 * (calcPad dy dz pixel dist energy pad).2) (by omega) (by omega)
    (Or.inl (by omega))).2
  unfold gains
  nlinarith

/-- **C46** (refuted for `pad = False`).  Without padding every projection of the result is constant:
it is the last pixel of the projection times the gain at frequency 0. -/
theorem retrieve_phase_unpadded (cpu : Nat) (debug : Bool) (n dy dz : Nat) (hy : 0 < dy)
    (hz : 0 < dz) (pixel dist energy alpha val : ℝ) (ncore nchunk : Option Nat)
    (m m' : Mproc.Cell → Frame) (res : Mproc.Buf)
    (h : Mproc.DistributeJobs cpu debug
      ⟨n, [0], none, fun _ => false, retrievePhase dy dz pixel dist energy alpha val false, ncore,
        nchunk, fun _ => false⟩ (fun _ => false) m m' res) :
    ∀ s < n, ∀ r c, m' (res, s) r c
      = normalized dy dz (phaseFilter pixel dist energy alpha dy dz) 0 0
        * m (.caller 0, s) (dy - 1) (dz - 1) := by
  intro s hs r c
  rw [retrieve_distributed cpu debug n dy dz hy hz pixel dist energy alpha val false ncore
    nchunk m m' res h s hs]
  unfold phaseResult gains
  have e : calcPad dy dz pixel dist energy false = (0, 0) := rfl
  rw [e]
  dsimp only
  rw [applyFilter_congr _ _ _ _ (fun _ _ => m (.caller 0, s) (dy - 1) (dz - 1)) (by
    intro r' _ c' _
    simp [ext]), filter_const _ _ (by omega) (by omega)]
  simp

/-- The same happens with padding on a detector with `2 ^ k - 1` rows and columns if the pad amount
is one pixel: the frame is the last pixel everywhere. -/
theorem embed_collapses (prj t : Frame) (r c : Nat) (hr : r < 7) (hc : c < 7) :
    embed (padWidth 7 1) (padWidth 7 1) 7 7 prj t r c = t 6 6 := by
  rw [padWidth_zero.1, embed_eq 0 0 7 7 (by norm_num) (by norm_num) prj t r c (by omega) (by omega)]
  rfl

/-- A run of `retrieve_phase` exists: the hypotheses of the theorems above can be met. -/
example : ∃ m' res, Mproc.DistributeJobs 4 false
    ⟨6, [0], none, fun _ => false, retrievePhase 16 20 (1 / 10000) 50 20 (1 / 1000) 0 true, some 3,
      some 2, fun _ => false⟩ (fun _ => false) (fun _ r c => (r : ℝ) + c) m' res := by
  exact Mproc.distribute_jobs_total 4 false _ _ _ 3 2 (by decide)

/-- The same for constant projections of odd size. -/
example : ∃ m' res, Mproc.DistributeJobs 4 false
    ⟨6, [0], none, fun _ => false, retrievePhase 17 20 (1 / 10000) 50 20 (1 / 1000) 0 true, some 3,
      some 2, fun _ => false⟩ (fun _ => false) (fun _ _ _ => 3) m' res ∧
    ∀ s < 6, ∀ r c, m' (res, s) r c < 3 := by
  obtain ⟨m', res, h⟩ := Mproc.distribute_jobs_total 4 false
    (⟨6, [0], none, fun _ => false, retrievePhase 17 20 (1 / 10000) 50 20 (1 / 1000) 0 true, some 3,
      some 2, fun _ => false⟩ : Mproc.Call Frame) (fun _ => false) (fun _ _ _ => 3) 3 2 (by decide)
  exact ⟨m', res, h, fun s hs => retrieve_phase_constant_odd 4 false 6 17 20 (by norm_num)
    (by norm_num) (by norm_num) _ _ _ _ 0 true (by norm_num) (by norm_num) (by norm_num)
    (by norm_num) (some 3) (some 2) _ m' res h s hs 3 (by norm_num) fun _ _ _ _ => rfl⟩

end

end Tomopy.Phase
