import Verif.Probe.Scan
import Verif.Phase.Props
import Mathlib.Data.List.GetD

/-! C76: far-field intensities. -/

namespace Tomopy.Probe

open Phase

noncomputable section

/-! ### Specification -/

/-- Diffraction intensity at the whole frequencies `(k, l)`. -/
def power (f : Img ℂ) (k l : Int) : ℝ :=
  ‖∑ r ∈ Finset.range f.r, ∑ c ∈ Finset.range f.c, f.get r c *
    Complex.exp (-(2 * Real.pi * Complex.I) * (r * k / f.r + c * l / f.c))‖ ^ 2

/-- Diffraction image with frequency zero at the middle pixel. -/
def diffraction (f : Img ℂ) : Img ℝ :=
  ⟨f.r, f.c, fun a b => power f ((a : Int) - (f.r / 2 : Nat)) ((b : Int) - (f.c / 2 : Nat))⟩

/-- Sum over the pixels of an image. -/
def total (f : Img ℝ) : ℝ := ∑ a ∈ Finset.range f.r, ∑ b ∈ Finset.range f.c, f.get a b

/-- Intensity of the wave. -/
def wave (f : Img ℂ) : Img ℝ := ⟨f.r, f.c, fun a b => ‖f.get a b‖ ^ 2⟩

/-! ### Frequencies -/

theorem rot_add (n : Nat) (j k : Int) : rot n (j + k) = rot n j * rot n k := by
  unfold rot
  rw [← Complex.exp_add]
  congr 1
  push_cast
  ring

theorem rot_period (n : Nat) (hn : 0 < n) (j k : Int) (h : (n : Int) ∣ j - k) : rot n j = rot n k := by
  have e : j = k + (j - k) := by ring
  rw [e, rot_add, (rot_eq_one n hn _).2 h, mul_one]

theorem shiftSrc_freq (n a : Nat) :
    (n : Int) ∣ (shiftSrc n a : Int) - ((a : Int) - (n / 2 : Nat)) := by
  unfold shiftSrc
  rw [Int.natCast_mod, ← Int.emod_emod_of_dvd _ (dvd_refl _)]
  have e : ((a + (n - n / 2) : Nat) : Int) = (a : Int) - (n / 2 : Nat) + n := by
    have : n / 2 ≤ n := Nat.div_le_self n 2
    omega
  rw [e]
  generalize (a : Int) - (n / 2 : Nat) = z
  rw [Int.emod_emod_of_dvd _ (dvd_refl _), Int.add_emod_right]
  have := Int.emod_add_mul_ediv z n
  exact ⟨-(z / n), by linarith⟩

theorem fft2_power (f : Img ℂ) (u v : Nat) (k l : Int) (hu : (f.r : Int) ∣ (u : Int) - k)
    (hv : (f.c : Int) ∣ (v : Int) - l) : ‖fft2 f.r f.c f.get u v‖ ^ 2 = power f k l := by
  unfold power fft2
  congr 2
  refine Finset.sum_congr rfl fun r hr => Finset.sum_congr rfl fun c hc => ?_
  have hr0 : 0 < f.r := lt_of_le_of_lt (Nat.zero_le _) (Finset.mem_range.1 hr)
  have hc0 : 0 < f.c := lt_of_le_of_lt (Nat.zero_le _) (Finset.mem_range.1 hc)
  congr 1
  rw [rot_period f.r hr0 (-(r * u)) (-(r * k)) (by
      have : (-((r : Int) * u)) - -((r : Int) * k) = -r * (u - k) := by ring
      rw [this]; exact Dvd.dvd.mul_left hu _),
    rot_period f.c hc0 (-(c * v)) (-(c * l)) (by
      have : (-((c : Int) * v)) - -((c : Int) * l) = -c * (v - l) := by ring
      rw [this]; exact Dvd.dvd.mul_left hv _)]
  unfold rot
  rw [← Complex.exp_add]
  congr 1
  push_cast
  ring

/-- **C76** (order).  Far-field image `k` is the diffraction image of the wave at position
`(k + n - ⌊n/2⌋) mod n`, with frequency zero at the middle pixel. -/
theorem far_order (psi : List (Img ℂ)) (k : Nat) (hk : k < psi.length) :
    ∃ g, (far psi)[k]? = some g ∧
      Same g (diffraction (psi.getD ((k + (psi.length - psi.length / 2)) % psi.length)
        ⟨0, 0, fun _ _ => 0⟩)) := by
  have e : (far psi)[k]? = some (let f := spectrum (psi.getD (shiftSrc psi.length k)
      ⟨0, 0, fun _ _ => 0⟩)
      ⟨f.r, f.c, fun a b => f.get (shiftSrc f.r a) (shiftSrc f.c b)⟩) := by
    unfold far
    rw [List.getElem?_map, List.getElem?_range hk]
    rfl
  refine ⟨_, e, rfl, rfl, ?_⟩
  intro a _ b _
  exact fft2_power _ _ _ _ _ (shiftSrc_freq _ a) (shiftSrc_freq _ b)

/-- **C76** (one position).  With one scan position the far-field image is the diffraction image
of the wave. -/
theorem far_position_partial (f : Img ℂ) :
    ∃ g, far [f] = [g] ∧ Same g (diffraction f) := by
  obtain ⟨g, h1, h2⟩ := far_order [f] 0 (by simp)
  exact ⟨g, by simpa [far] using h1, by simpa using h2⟩

/-- The full statement is false: with two scan positions the images are exchanged. -/
theorem far_order_refuted : ∃ f f' g g', far [f, f'] = [g, g'] ∧
    ¬ Same g (diffraction f) ∧ Same g (diffraction f') ∧ Same g' (diffraction f) := by
  obtain ⟨g, h1, h2⟩ := far_order [⟨1, 1, fun _ _ => 0⟩, ⟨1, 1, fun _ _ => 1⟩] 0 (by simp)
  obtain ⟨g', h1', h2'⟩ := far_order [⟨1, 1, fun _ _ => 0⟩, ⟨1, 1, fun _ _ => 1⟩] 1 (by simp)
  refine ⟨⟨1, 1, fun _ _ => 0⟩, ⟨1, 1, fun _ _ => 1⟩, g, g', ?_, ?_, by simpa using h2,
    by simpa using h2'⟩
  · have e1 : (far [⟨1, 1, fun _ _ => 0⟩, ⟨1, 1, fun _ _ => 1⟩]).length = 2 := by simp [far]
    match h : far [⟨1, 1, fun _ _ => 0⟩, ⟨1, 1, fun _ _ => 1⟩], e1 with
    | [x, y], _ =>
      rw [h] at h1 h1'
      simp at h1 h1'
      rw [h1, h1']
  · intro h
    have a1 := h.2.2 0 (by rw [h.1]; exact Nat.one_pos) 0 (by rw [h.2.1]; exact Nat.one_pos)
    have a2 := h2.2.2 0 (by rw [h.1]; exact Nat.one_pos) 0 (by rw [h.2.1]; exact Nat.one_pos)
    rw [a1] at a2
    simp [diffraction, power] at a2

/-! ### Energy -/

/-- Energy of a sequence and of its Fourier transform. -/
theorem parseval (n : Nat) (hn : 0 < n) (a : Nat → ℂ) :
    ∑ u ∈ Finset.range n, ‖∑ r ∈ Finset.range n, a r * rot n (-(r * u))‖ ^ 2
      = n * ∑ r ∈ Finset.range n, ‖a r‖ ^ 2 := by
  have conj_rot : ∀ k : Int, (starRingEnd ℂ) (rot n k) = rot n (-k) := by
    intro k
    unfold rot
    rw [← Complex.exp_conj]
    congr 1
    simp only [map_div₀, map_mul, Complex.conj_I, Complex.conj_ofReal, map_ofNat, map_intCast,
      map_natCast]
    push_cast
    ring
  have sq : ∀ z : ℂ, ((‖z‖ ^ 2 : ℝ) : ℂ) = z * (starRingEnd ℂ) z := by
    intro z
    rw [Complex.mul_conj, Complex.normSq_eq_norm_sq]
  rw [← Complex.ofReal_inj]
  push_cast
  simp only [← Complex.ofReal_pow, sq, map_sum, map_mul, conj_rot, neg_neg]
  have e : ∀ u : Nat, (∑ r ∈ Finset.range n, a r * rot n (-(r * u))) *
      (∑ s ∈ Finset.range n, (starRingEnd ℂ) (a s) * rot n (s * u))
      = ∑ r ∈ Finset.range n, ∑ s ∈ Finset.range n,
        a r * (starRingEnd ℂ) (a s) * rot n (u * (s - r : Int)) := by
    intro u
    rw [Finset.sum_mul_sum]
    refine Finset.sum_congr rfl fun r _ => Finset.sum_congr rfl fun s _ => ?_
    have : (u : Int) * (s - r : Int) = -(r * u) + s * u := by ring
    rw [this, rot_add]
    ring
  simp only [e]
  rw [Finset.sum_comm]
  rw [Finset.mul_sum]
  refine Finset.sum_congr rfl fun r hr => ?_
  rw [Finset.sum_comm]
  simp only [← Finset.mul_sum, sum_rot n hn]
  rw [Finset.sum_eq_single r]
  · simp; ring
  · intro s hs hne
    rw [if_neg, mul_zero]
    rintro ⟨q, hq⟩
    have h1 := Finset.mem_range.1 hr
    have h2 := Finset.mem_range.1 hs
    have h3 : q = 0 := by
      rcases lt_trichotomy q 0 with h | h | h
      · have : (n : Int) * q ≤ n * (-1) := Int.mul_le_mul_of_nonneg_left (by omega) (by omega)
        omega
      · exact h
      · have : (n : Int) * 1 ≤ n * q := Int.mul_le_mul_of_nonneg_left (by omega) (by omega)
        omega
    subst h3
    omega
  · intro h; exact absurd hr h

theorem sum_shift (n : Nat) (hn : 0 < n) (f : Nat → ℝ) :
    ∑ a ∈ Finset.range n, f (shiftSrc n a) = ∑ a ∈ Finset.range n, f a := by
  refine Finset.sum_nbij (shiftSrc n) ?_ ?_ ?_ fun _ _ => rfl
  · intro a _; exact Finset.mem_range.2 (shiftSrc_lt n a hn)
  · intro a ha b hb h
    have ha := Finset.mem_range.1 (Finset.mem_coe.1 ha)
    have hb := Finset.mem_range.1 (Finset.mem_coe.1 hb)
    unfold shiftSrc at h
    have h2 : a ≡ b [MOD n] := Nat.ModEq.add_right_cancel' _ h
    exact Nat.ModEq.eq_of_lt_of_lt h2 ha hb
  · intro b hb
    have hb := Finset.mem_range.1 (Finset.mem_coe.1 hb)
    refine ⟨(b + n / 2) % n, Finset.mem_coe.2 (Finset.mem_range.2 (Nat.mod_lt _ hn)), ?_⟩
    unfold shiftSrc
    rw [Nat.mod_add_mod, show b + n / 2 + (n - n / 2) = b + n by
      have : n / 2 ≤ n := Nat.div_le_self n 2
      omega, Nat.add_mod_right, Nat.mod_eq_of_lt hb]

/-- The spectrum of an image has its energy times the number of pixels. -/
theorem total_spectrum (f : Img ℂ) (hr : 0 < f.r) (hc : 0 < f.c) :
    total (spectrum f) = (f.r * f.c : ℝ) * total (wave f) := by
  unfold total spectrum wave fft2
  dsimp only
  rw [Finset.sum_comm]
  have e : ∀ u v : Nat, ∑ r ∈ Finset.range f.r, ∑ c ∈ Finset.range f.c,
      f.get r c * (rot f.r (-(r * u)) * rot f.c (-(c * v)))
      = ∑ r ∈ Finset.range f.r, (∑ c ∈ Finset.range f.c, f.get r c * rot f.c (-(c * v))) *
        rot f.r (-(r * u)) := by
    intro u v
    refine Finset.sum_congr rfl fun r _ => ?_
    rw [Finset.sum_mul]
    refine Finset.sum_congr rfl fun c _ => ?_
    ring
  simp only [e, parseval f.r hr]
  rw [← Finset.mul_sum, Finset.sum_comm]
  simp only [parseval f.c hc]
  rw [← Finset.mul_sum]
  ring

/-- **C76** (energy of one image).  The sum of a diffraction image is the number of its pixels
times the sum of the intensity of the wave. -/
theorem diffraction_energy (f : Img ℂ) (hr : 0 < f.r) (hc : 0 < f.c) :
    total (diffraction f) = (f.r * f.c : ℝ) * total (wave f) := by
  rw [← total_spectrum f hr hc]
  unfold total diffraction spectrum
  dsimp only
  rw [← sum_shift f.r hr fun u => ∑ v ∈ Finset.range f.c, ‖fft2 f.r f.c f.get u v‖ ^ 2]
  refine Finset.sum_congr rfl fun a _ => ?_
  rw [← sum_shift f.c hc fun v => ‖fft2 f.r f.c f.get (shiftSrc f.r a) v‖ ^ 2]
  refine Finset.sum_congr rfl fun b _ => ?_
  exact (fft2_power f _ _ _ _ (shiftSrc_freq _ a) (shiftSrc_freq _ b)).symm

theorem total_same {f g : Img ℝ} (h : Same f g) : total f = total g := by
  unfold total
  rw [← h.1, ← h.2.1]
  refine Finset.sum_congr rfl fun a ha => Finset.sum_congr rfl fun b hb => ?_
  exact h.2.2 a (Finset.mem_range.1 ha) b (Finset.mem_range.1 hb)

/-- **C76** (energy).  For images of one shape the far-field intensities of all positions together
are the number of pixels times the near-field intensities of all positions together. -/
theorem far_energy (psi : List (Img ℂ)) (h w : Nat) (hh : 0 < h) (hw : 0 < w)
    (hs : ∀ f ∈ psi, f.r = h ∧ f.c = w) :
    ((far psi).map total).sum = (h * w : ℝ) * ((near psi).map total).sum := by
  rcases Nat.eq_zero_or_pos psi.length with h0 | h0
  · rw [List.length_eq_zero_iff] at h0
    subst h0
    simp [far, near]
  set d : Img ℂ := ⟨0, 0, fun _ _ => 0⟩ with hd
  have e1 : ((far psi).map total).sum
      = ∑ k ∈ Finset.range psi.length, total (diffraction (psi.getD (shiftSrc psi.length k) d)) := by
    rw [Finset.sum_range]
    rw [← List.sum_ofFn]
    congr 1
    apply List.ext_getElem
    · simp [far]
    · intro k h1 h2
      have hk : k < psi.length := by simpa [far] using h1
      obtain ⟨g, hg, hsame⟩ := far_order psi k hk
      rw [List.getElem_map, List.getElem_ofFn]
      have : (far psi)[k]'(by simpa [far] using hk) = g := by
        have := List.getElem?_eq_getElem (l := far psi) (i := k) (by simpa [far] using hk)
        rw [this] at hg
        injection hg
      rw [this]
      exact total_same hsame
  rw [e1, sum_shift psi.length h0 fun k => total (diffraction (psi.getD k d))]
  have e2 : ((near psi).map total).sum = ∑ k ∈ Finset.range psi.length, total (wave (psi.getD k d)) := by
    rw [Finset.sum_range, ← List.sum_ofFn]
    congr 1
    apply List.ext_getElem
    · simp [near]
    · intro k h1 h2
      have hk : k < psi.length := by simpa [near] using h1
      simp only [near, List.map_map, List.getElem_map, List.getElem_ofFn, Function.comp]
      rw [List.getD_eq_getElem _ _ hk]
      rfl
  rw [e2, Finset.mul_sum]
  refine Finset.sum_congr rfl fun k hk => ?_
  have hk := Finset.mem_range.1 hk
  rw [List.getD_eq_getElem _ _ hk]
  obtain ⟨a, b⟩ := hs _ (List.getElem_mem hk)
  rw [diffraction_energy _ (a ▸ hh) (b ▸ hw), a, b]

/-- Near-field intensities are the squared moduli, position by position. -/
theorem near_position (psi : List (Img ℂ)) (k : Nat) (hk : k < psi.length) :
    (near psi)[k]? = some (wave psi[k]) := by
  unfold near
  rw [List.getElem?_map, List.getElem?_eq_getElem hk]
  rfl

/-- The middle pixel of a diffraction image is the squared modulus of the sum of the wave. -/
theorem diffraction_middle (f : Img ℂ) : (diffraction f).get (f.r / 2) (f.c / 2)
    = ‖∑ r ∈ Finset.range f.r, ∑ c ∈ Finset.range f.c, f.get r c‖ ^ 2 := by
  unfold diffraction power
  simp only [sub_self, Int.cast_zero, mul_zero, zero_div, add_zero, Complex.exp_zero, mul_one]

example : ((far [⟨2, 2, fun a b => a + b⟩, ⟨2, 2, fun _ _ => 1⟩]).map total).sum
    = (2 * 2 : ℝ) * ((near [⟨2, 2, fun a b => a + b⟩, ⟨2, 2, fun _ _ => 1⟩]).map total).sum :=
  far_energy _ 2 2 (by decide) (by decide) (by simp)

end

end Tomopy.Probe
