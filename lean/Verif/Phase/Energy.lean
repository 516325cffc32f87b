import Verif.Phase.Mirror
import Verif.Probe.Field

/-! C190: phase retrieval amplifies nothing and loses nothing. -/

set_option linter.unusedSectionVars false

namespace Tomopy.Phase

noncomputable section

/-! ### Specification -/

/-- Sum of the squares of `h × w` pixels. -/
def energy2 (h w : Nat) (f : Frame) : ℝ := ∑ r ∈ Finset.range h, ∑ c ∈ Finset.range w, f r c ^ 2

/-- Sum of the products of the pixels of two pictures. -/
def inner2 (h w : Nat) (f f' : Frame) : ℝ :=
  ∑ r ∈ Finset.range h, ∑ c ∈ Finset.range w, f r c * f' r c

/-- The difference of two pictures. -/
def diff (f f' : Frame) : Frame := fun r c => f r c - f' r c

/-! ### Fourier sums -/

theorem conj_rot (n : Nat) (k : Int) : (starRingEnd ℂ) (rot n k) = rot n (-k) := by
  unfold rot
  rw [← Complex.exp_conj]
  congr 1
  simp only [map_div₀, map_mul, Complex.conj_I, Complex.conj_ofReal, map_ofNat, map_intCast,
    map_natCast]
  push_cast
  ring

theorem fft2_energy (h w : Nat) (hh : 0 < h) (hw : 0 < w) (f : Nat → Nat → ℂ) :
    ∑ u ∈ Finset.range h, ∑ v ∈ Finset.range w, ‖fft2 h w f u v‖ ^ 2
      = (h * w : ℝ) * ∑ r ∈ Finset.range h, ∑ c ∈ Finset.range w, ‖f r c‖ ^ 2 :=
  Probe.total_spectrum ⟨h, w, f⟩ hh hw

/-- The inverse transform by the transform of the conjugates. -/
theorem ifft2_conj (h w : Nat) (y : Nat → Nat → ℂ) (r c : Nat) :
    ifft2 h w y r c = (starRingEnd ℂ) (fft2 h w (fun u v => (starRingEnd ℂ) (y u v)) r c) / (h * w) := by
  unfold ifft2 fft2
  congr 1
  simp only [map_sum, map_mul, conj_rot, neg_neg, Complex.conj_conj]
  refine Finset.sum_congr rfl fun u _ => Finset.sum_congr rfl fun v _ => ?_
  rw [mul_comm (u : Int), mul_comm (v : Int)]

theorem ifft2_energy (h w : Nat) (hh : 0 < h) (hw : 0 < w) (y : Nat → Nat → ℂ) :
    ∑ r ∈ Finset.range h, ∑ c ∈ Finset.range w, ‖ifft2 h w y r c‖ ^ 2
      = (∑ u ∈ Finset.range h, ∑ v ∈ Finset.range w, ‖y u v‖ ^ 2) / (h * w : ℝ) := by
  have h1 : (0 : ℝ) < h := by exact_mod_cast hh
  have h2 : (0 : ℝ) < w := by exact_mod_cast hw
  have e : ∀ r c, ‖ifft2 h w y r c‖ ^ 2
      = ‖fft2 h w (fun u v => (starRingEnd ℂ) (y u v)) r c‖ ^ 2 / (h * w : ℝ) ^ 2 := by
    intro r c
    rw [ifft2_conj, norm_div, div_pow, RCLike.norm_conj, norm_mul, Complex.norm_natCast,
      Complex.norm_natCast]
  simp only [e, ← Finset.sum_div]
  rw [fft2_energy h w hh hw]
  simp only [RCLike.norm_conj]
  field_simp

/-! ### The filter -/

/-- **C190** (no amplification).  If no gain exceeds 1, the filtered frame has at most the energy of
the frame. -/
theorem filter_energy_le (h w : Nat) (hh : 0 < h) (hw : 0 < w) (g f : Frame)
    (hg : ∀ u < h, ∀ v < w, |g u v| ≤ 1) :
    energy2 h w (applyFilter h w g f) ≤ energy2 h w f := by
  have h1 : (0 : ℝ) < h := by exact_mod_cast hh
  have h2 : (0 : ℝ) < w := by exact_mod_cast hw
  have e1 : energy2 h w f = (∑ u ∈ Finset.range h, ∑ v ∈ Finset.range w,
      ‖fft2 h w (fun r c => (f r c : ℂ)) u v‖ ^ 2) / (h * w : ℝ) := by
    rw [fft2_energy h w hh hw]
    unfold energy2
    have : ∀ x : ℝ, ‖(x : ℂ)‖ ^ 2 = x ^ 2 := by
      intro x
      rw [Complex.norm_real, Real.norm_eq_abs, sq_abs]
    simp only [this]
    field_simp
  have e2 : energy2 h w (applyFilter h w g f) ≤ ∑ r ∈ Finset.range h, ∑ c ∈ Finset.range w,
      ‖ifft2 h w (fun u v => fft2 h w (fun r c => (f r c : ℂ)) u v * (g u v : ℂ)) r c‖ ^ 2 := by
    refine Finset.sum_le_sum fun r _ => Finset.sum_le_sum fun c _ => ?_
    unfold applyFilter
    rw [← sq_abs]
    exact pow_le_pow_left₀ (abs_nonneg _) (Complex.abs_re_le_norm _) 2
  refine e2.trans ?_
  rw [ifft2_energy h w hh hw, e1]
  refine div_le_div_of_nonneg_right ?_ (by positivity)
  refine Finset.sum_le_sum fun u hu => Finset.sum_le_sum fun v hv => ?_
  rw [norm_mul, mul_pow, Complex.norm_real, Real.norm_eq_abs]
  have h3 := hg u (Finset.mem_range.1 hu) v (Finset.mem_range.1 hv)
  have h4 : |g u v| ^ 2 ≤ 1 := pow_le_one₀ (abs_nonneg _) h3
  nlinarith [sq_nonneg ‖fft2 h w (fun r c => (f r c : ℂ)) u v‖]

/-- The product of a frame with the filtered frame is the sum of the gains times the intensities of
the frequencies. -/
theorem filter_inner (h w : Nat) (g f : Frame) :
    inner2 h w f (applyFilter h w g f) = (∑ u ∈ Finset.range h, ∑ v ∈ Finset.range w,
      g u v * ‖fft2 h w (fun r c => (f r c : ℂ)) u v‖ ^ 2) / (h * w : ℝ) := by
  set Y := fft2 h w (fun r c => (f r c : ℂ)) with hY
  have e1 : inner2 h w f (applyFilter h w g f) = (∑ r ∈ Finset.range h, ∑ c ∈ Finset.range w,
      (f r c : ℂ) * ifft2 h w (fun u v => Y u v * (g u v : ℂ)) r c).re := by
    unfold inner2 applyFilter
    simp only [Complex.re_sum, Complex.re_ofReal_mul, hY]
  have e2 : ∑ r ∈ Finset.range h, ∑ c ∈ Finset.range w,
      (f r c : ℂ) * ifft2 h w (fun u v => Y u v * (g u v : ℂ)) r c
      = (∑ u ∈ Finset.range h, ∑ v ∈ Finset.range w, Y u v * (g u v : ℂ) *
        ∑ r ∈ Finset.range h, ∑ c ∈ Finset.range w,
          (f r c : ℂ) * (rot h (r * u) * rot w (c * v))) / (h * w) := by
    unfold ifft2
    simp only [mul_div_assoc', ← Finset.sum_div]
    congr 1
    simp only [Finset.mul_sum]
    calc ∑ r ∈ Finset.range h, ∑ c ∈ Finset.range w, ∑ u ∈ Finset.range h, ∑ v ∈ Finset.range w, _
        = ∑ r ∈ Finset.range h, ∑ u ∈ Finset.range h, ∑ c ∈ Finset.range w,
            ∑ v ∈ Finset.range w, _ := Finset.sum_congr rfl fun r _ => Finset.sum_comm
      _ = ∑ u ∈ Finset.range h, ∑ r ∈ Finset.range h, ∑ c ∈ Finset.range w,
            ∑ v ∈ Finset.range w, _ := Finset.sum_comm
      _ = ∑ u ∈ Finset.range h, ∑ r ∈ Finset.range h, ∑ v ∈ Finset.range w,
            ∑ c ∈ Finset.range w, _ :=
          Finset.sum_congr rfl fun u _ => Finset.sum_congr rfl fun r _ => Finset.sum_comm
      _ = ∑ u ∈ Finset.range h, ∑ v ∈ Finset.range w, ∑ r ∈ Finset.range h,
            ∑ c ∈ Finset.range w, _ := Finset.sum_congr rfl fun u _ => Finset.sum_comm
      _ = _ := by
        refine Finset.sum_congr rfl fun u _ => Finset.sum_congr rfl fun v _ =>
          Finset.sum_congr rfl fun r _ => Finset.sum_congr rfl fun c _ => ?_
        ring
  have e3 : ∀ u v : Nat, ∑ r ∈ Finset.range h, ∑ c ∈ Finset.range w,
      (f r c : ℂ) * (rot h (r * u) * rot w (c * v)) = (starRingEnd ℂ) (Y u v) := by
    intro u v
    rw [hY]
    unfold fft2
    simp only [map_sum, map_mul, conj_rot, neg_neg, Complex.conj_ofReal]
  have e4 : ∀ u v : Nat, Y u v * (g u v : ℂ) * (starRingEnd ℂ) (Y u v)
      = ((g u v * ‖Y u v‖ ^ 2 : ℝ) : ℂ) := by
    intro u v
    have : Y u v * (starRingEnd ℂ) (Y u v) = ((‖Y u v‖ ^ 2 : ℝ) : ℂ) := by
      rw [Complex.mul_conj, Complex.normSq_eq_norm_sq]
    rw [mul_right_comm, this]
    push_cast
    ring
  rw [e1, e2]
  simp only [e3, e4]
  have : ((h : ℂ) * w) = (((h : ℝ) * w : ℝ) : ℂ) := by push_cast; ring
  rw [this, Complex.div_ofReal_re]
  simp only [Complex.re_sum, Complex.ofReal_re]

/-- With gains of at least `b`, the product of a frame with the filtered frame is at least `b` times
its energy. -/
theorem filter_inner_ge (h w : Nat) (hh : 0 < h) (hw : 0 < w) (g f : Frame) (b : ℝ)
    (hg : ∀ u < h, ∀ v < w, b ≤ g u v) :
    b * energy2 h w f ≤ inner2 h w f (applyFilter h w g f) := by
  have h1 : (0 : ℝ) < h := by exact_mod_cast hh
  have h2 : (0 : ℝ) < w := by exact_mod_cast hw
  have e1 : energy2 h w f = (∑ u ∈ Finset.range h, ∑ v ∈ Finset.range w,
      ‖fft2 h w (fun r c => (f r c : ℂ)) u v‖ ^ 2) / (h * w : ℝ) := by
    rw [fft2_energy h w hh hw]
    unfold energy2
    have : ∀ x : ℝ, ‖(x : ℂ)‖ ^ 2 = x ^ 2 := by
      intro x
      rw [Complex.norm_real, Real.norm_eq_abs, sq_abs]
    simp only [this]
    field_simp
  rw [filter_inner, e1, mul_div_assoc']
  refine div_le_div_of_nonneg_right ?_ (by positivity)
  rw [Finset.mul_sum]
  refine Finset.sum_le_sum fun u hu => ?_
  rw [Finset.mul_sum]
  refine Finset.sum_le_sum fun v hv => ?_
  exact mul_le_mul_of_nonneg_right (hg u (Finset.mem_range.1 hu) v (Finset.mem_range.1 hv))
    (sq_nonneg _)

theorem energy2_nonneg (h w : Nat) (f : Frame) : 0 ≤ energy2 h w f :=
  Finset.sum_nonneg fun _ _ => Finset.sum_nonneg fun _ _ => sq_nonneg _

theorem energy2_zero (h w : Nat) (f : Frame) (h0 : energy2 h w f = 0) :
    ∀ r < h, ∀ c < w, f r c = 0 := by
  intro r hr c hc
  have h1 := (Finset.sum_eq_zero_iff_of_nonneg (fun _ _ => Finset.sum_nonneg fun _ _ =>
    sq_nonneg _)).1 h0 r (Finset.mem_range.2 hr)
  have h2 := (Finset.sum_eq_zero_iff_of_nonneg (fun _ _ => sq_nonneg _)).1 h1 c
    (Finset.mem_range.2 hc)
  exact pow_eq_zero_iff (two_ne_zero) |>.1 h2

theorem filter_diff (h w : Nat) (g f f' : Frame) :
    applyFilter h w g (diff f f') = diff (applyFilter h w g f) (applyFilter h w g f') := by
  funext r c
  have := filter_linear h w g f f' 1 (-1) r c
  unfold diff
  have e : (fun r c => f r c - f' r c) = fun r c => 1 * f r c + -1 * f' r c := by
    funext r c
    ring
  rw [e, this]
  ring

/-- With gains of at least `b > 0`, filtered frames are at least `b` times as far apart as the
frames. -/
theorem filter_apart (h w : Nat) (hh : 0 < h) (hw : 0 < w) (g f f' : Frame) (b : ℝ) (hb : 0 ≤ b)
    (hg : ∀ u < h, ∀ v < w, b ≤ g u v) :
    b ^ 2 * energy2 h w (diff f f')
      ≤ energy2 h w (diff (applyFilter h w g f) (applyFilter h w g f')) := by
  rw [← filter_diff]
  set d := diff f f'
  set z := applyFilter h w g d with hz
  have h1 := filter_inner_ge h w hh hw g d b hg
  have h2 : 0 ≤ energy2 h w (fun r c => z r c - b * d r c) := energy2_nonneg _ _ _
  have e : energy2 h w (fun r c => z r c - b * d r c)
      = energy2 h w z - 2 * b * inner2 h w d z + b ^ 2 * energy2 h w d := by
    unfold energy2 inner2
    simp only [Finset.mul_sum, ← Finset.sum_sub_distrib, ← Finset.sum_add_distrib]
    refine Finset.sum_congr rfl fun r _ => Finset.sum_congr rfl fun c _ => ?_
    ring
  rw [e] at h2
  nlinarith

/-- The gains of `retrieve_phase` are positive and at most 1, for all sizes and parameters. -/
theorem gains_bounds (pixel dist energy alpha : ℝ) (he : 0 < energy) (hd : 0 < dist)
    (ha : 0 < alpha) (h w : Nat) (hh : 0 < h) (hw : 0 < w) (u v : Nat) (hu : u < h) (hv : v < w) :
    0 < normalized h w (phaseFilter pixel dist energy alpha h w) u v ∧
    normalized h w (phaseFilter pixel dist energy alpha h w) u v ≤ 1 := by
  have hpos : ∀ i j, 0 < phaseFilter pixel dist energy alpha h w i j := fun i j =>
    paganin_pos energy dist alpha he hd ha _ (add_nonneg (sq_nonneg _) (sq_nonneg _))
  have hm := lt_of_lt_of_le (hpos 0 0) (le_maxOf h w (phaseFilter pixel dist energy alpha h w) 0 0 hh hw)
  unfold normalized
  exact ⟨div_pos (hpos u v) hm, (div_le_one hm).2 (le_maxOf h w _ u v hu hv)⟩

/-- **C190** (nothing is lost).  Different frames give different filtered frames, for all sizes and
parameters. -/
theorem filter_injective (pixel dist energy alpha : ℝ) (he : 0 < energy) (hd : 0 < dist)
    (ha : 0 < alpha) (h w : Nat) (hh : 0 < h) (hw : 0 < w) (f f' : Frame)
    (heq : ∀ r < h, ∀ c < w,
      applyFilter h w (normalized h w (phaseFilter pixel dist energy alpha h w)) f r c
        = applyFilter h w (normalized h w (phaseFilter pixel dist energy alpha h w)) f' r c) :
    ∀ r < h, ∀ c < w, f r c = f' r c := by
  set g := normalized h w (phaseFilter pixel dist energy alpha h w) with hg
  have hb := gains_bounds pixel dist energy alpha he hd ha h w hh hw
  obtain ⟨b, hb0, hbg⟩ : ∃ b > 0, ∀ u < h, ∀ v < w, b ≤ g u v := by
    have hne : (Finset.range h ×ˢ Finset.range w).Nonempty :=
      ⟨(0, 0), Finset.mem_product.2 ⟨Finset.mem_range.2 hh, Finset.mem_range.2 hw⟩⟩
    obtain ⟨⟨u₀, v₀⟩, hmem, hmin⟩ := Finset.exists_min_image _ (fun p : Nat × Nat => g p.1 p.2) hne
    have hmem := Finset.mem_product.1 hmem
    refine ⟨g u₀ v₀, (hb u₀ v₀ (Finset.mem_range.1 hmem.1) (Finset.mem_range.1 hmem.2)).1, ?_⟩
    intro u hu v hv
    exact hmin (u, v) (Finset.mem_product.2 ⟨Finset.mem_range.2 hu, Finset.mem_range.2 hv⟩)
  have h1 := filter_apart h w hh hw g f f' b hb0.le hbg
  have h2 : energy2 h w (diff (applyFilter h w g f) (applyFilter h w g f')) = 0 := by
    refine Finset.sum_eq_zero fun r hr => Finset.sum_eq_zero fun c hc => ?_
    unfold diff
    rw [heq r (Finset.mem_range.1 hr) c (Finset.mem_range.1 hc)]
    ring
  rw [h2] at h1
  have h3 := energy2_nonneg h w (diff f f')
  have h4 : energy2 h w (diff f f') = 0 := by
    have : 0 < b ^ 2 := by positivity
    nlinarith
  intro r hr c hc
  exact sub_eq_zero.1 (energy2_zero h w _ h4 r hr c hc)

/-! ### Results in terms of the call -/

theorem window_le (p n : Nat) (φ : Nat → ℝ) (h0 : ∀ i, 0 ≤ φ i) :
    ∑ r ∈ Finset.range n, φ (r + p) ≤ ∑ r ∈ Finset.range (n + 2 * p), φ r := by
  rw [show n + 2 * p = p + (n + p) by ring, Finset.sum_range_add, Finset.sum_range_add]
  have h1 : 0 ≤ ∑ x ∈ Finset.range p, φ x := Finset.sum_nonneg fun _ _ => h0 _
  have h2 : 0 ≤ ∑ x ∈ Finset.range p, φ (p + (n + x)) := Finset.sum_nonneg fun _ _ => h0 _
  have h3 : ∑ r ∈ Finset.range n, φ (r + p) = ∑ x ∈ Finset.range n, φ (p + x) :=
    Finset.sum_congr rfl fun x _ => by rw [Nat.add_comm]
  linarith

theorem energy2_window (px py dy dz : Nat) (f : Frame) :
    energy2 dy dz (fun r c => f (r + px) (c + py)) ≤ energy2 (dy + 2 * px) (dz + 2 * py) f := by
  unfold energy2
  refine le_trans (Finset.sum_le_sum fun r _ => window_le py dz (fun c => f (r + px) c ^ 2)
    fun _ => sq_nonneg _) ?_
  exact window_le px dy (fun r => ∑ c ∈ Finset.range (dz + 2 * py), f r c ^ 2)
    fun _ => Finset.sum_nonneg fun _ _ => sq_nonneg _

/-- **C190**.  `retrieve_phase` with padding on projections with even numbers of rows and columns:
two results are at most as far apart as the two frames, which are the projections continued by their
border pixels; noise is not amplified.  For all numbers of cores, chunk sizes and schedules. -/
theorem retrieve_phase_contracts (cpu cpu₂ : Nat) (debug debug₂ : Bool) (n dy dz : Nat) (hy : 0 < dy)
    (hz : 0 < dz) (ey : dy % 2 = 0) (ez : dz % 2 = 0) (pixel dist energy alpha val val₂ : ℝ)
    (hp : 0 < pixel) (hd : 0 < dist) (he : 0 < energy) (ha : 0 < alpha)
    (ncore nchunk ncore₂ nchunk₂ : Option Nat)
    (m m' m₂ m₂' : Mproc.Cell → Frame) (res res₂ : Mproc.Buf)
    (h : Mproc.DistributeJobs cpu debug
      ⟨n, [0], none, fun _ => false, retrievePhase dy dz pixel dist energy alpha val true, ncore,
        nchunk, fun _ => false⟩ (fun _ => false) m m' res)
    (h₂ : Mproc.DistributeJobs cpu₂ debug₂
      ⟨n, [0], none, fun _ => false, retrievePhase dy dz pixel dist energy alpha val₂ true, ncore₂,
        nchunk₂, fun _ => false⟩ (fun _ => false) m₂ m₂' res₂)
    (s : Nat) (hs : s < n) :
    ∃ px py k l, dy + 2 * px = 2 ^ k ∧ dz + 2 * py = 2 ^ l ∧
      energy2 dy dz (diff (m' (res, s)) (m₂' (res₂, s)))
        ≤ energy2 (2 ^ k) (2 ^ l)
          (extended px py dy dz (diff (m (.caller 0, s)) (m₂ (.caller 0, s)))) := by
  have hpp := padPix_pos pixel dist energy hp hd he
  obtain ⟨h1, h2⟩ := padWidth_even dy _ hy hpp ey
  obtain ⟨h3, h4⟩ := padWidth_even dz _ hz hpp ez
  refine ⟨_, _, _, _, h1, h3, ?_⟩
  rw [retrieve_distributed cpu debug n dy dz hy hz pixel dist energy alpha val true ncore nchunk
    m m' res h s hs, retrieve_distributed cpu₂ debug₂ n dy dz hy hz pixel dist energy alpha val₂ true
    ncore₂ nchunk₂ m₂ m₂' res₂ h₂ s hs, ← h1, ← h3]
  unfold phaseResult gains
  have e : calcPad dy dz pixel dist energy true
      = (padWidth dy (padPix pixel (wavelength energy) dist),
        padWidth dz (padPix pixel (wavelength energy) dist)) := rfl
  rw [e]
  dsimp only
  generalize padWidth dy (padPix pixel (wavelength energy) dist) = px at *
  generalize padWidth dz (padPix pixel (wavelength energy) dist) = py at *
  have n1 := h2.ne'
  have n2 := h4.ne'
  simp only [ext, n1, n2, if_false]
  set g := normalized (dy + 2 * px) (dz + 2 * py)
    (phaseFilter pixel dist energy alpha (dy + 2 * px) (dz + 2 * py)) with hg
  refine le_trans (energy2_window px py dy dz (diff
    (applyFilter (dy + 2 * px) (dz + 2 * py) g (extended px py dy dz (m (.caller 0, s))))
    (applyFilter (dy + 2 * px) (dz + 2 * py) g (extended px py dy dz (m₂ (.caller 0, s)))))) ?_
  rw [← filter_diff]
  refine filter_energy_le _ _ (by omega) (by omega) g _ fun u hu v hv => ?_
  obtain ⟨b1, b2⟩ := gains_bounds pixel dist energy alpha he hd ha _ _ (by omega) (by omega) u v hu hv
  rw [← hg] at b1 b2
  rw [abs_of_pos b1]
  exact b2

/-- The hypotheses can be met: the same stack, and the stack with noise in one pixel. -/
example : ∃ m' res m₂' res₂, Mproc.DistributeJobs 4 false
    ⟨6, [0], none, fun _ => false, retrievePhase 16 20 (1 / 10000) 50 20 (1 / 1000) 0 true, some 3,
      some 2, fun _ => false⟩ (fun _ => false) (fun _ _ _ => 1) m' res ∧
    Mproc.DistributeJobs 4 false
    ⟨6, [0], none, fun _ => false, retrievePhase 16 20 (1 / 10000) 50 20 (1 / 1000) 0 true, some 2,
      some 1, fun _ => false⟩ (fun _ => false) (fun _ r c => 1 + bright 1 5 7 r c) m₂' res₂ := by
  obtain ⟨m', res, h⟩ := Mproc.distribute_jobs_total 4 false
    (⟨6, [0], none, fun _ => false, retrievePhase 16 20 (1 / 10000) 50 20 (1 / 1000) 0 true, some 3,
      some 2, fun _ => false⟩ : Mproc.Call Frame) (fun _ => false) (fun _ _ _ => 1) 3 2
    (by decide)
  obtain ⟨m₂', res₂, h₂⟩ := Mproc.distribute_jobs_total 4 false
    (⟨6, [0], none, fun _ => false, retrievePhase 16 20 (1 / 10000) 50 20 (1 / 1000) 0 true, some 2,
      some 1, fun _ => false⟩ : Mproc.Call Frame) (fun _ => false)
    (fun _ r c => 1 + bright 1 5 7 r c) 2 1 (by decide)
  exact ⟨m', res, m₂', res₂, h, h₂⟩

/-- Gains of a frame of 4 × 4 pixels that meet the bounds with `b = 1 / 2`. -/
example : ∀ u < 4, ∀ v < 4, (1 / 2 : ℝ) ≤ (fun a b : Nat => if a = b then (1 : ℝ) else 1 / 2) u v ∧
    |(fun a b : Nat => if a = b then (1 : ℝ) else 1 / 2) u v| ≤ 1 := by
  intro u _ v _
  dsimp only
  split_ifs <;> norm_num

end

end Tomopy.Phase
