import Verif.Gridrec.Pixel
import Mathlib.Analysis.SpecialFunctions.Trigonometric.Basic
import Mathlib.Algebra.Ring.GeomSum

/-!
# gridrec: symmetries (C156-C159)
-/

set_option linter.unusedSectionVars false

namespace Tomopy.Gridrec

open Complex

/-! ## Specification -/

/-- `d'` is `d` mirrored about the detector position `K / 2`; what is mirrored off the detector is
zero. -/
def Mirrored (dx : Nat) (K : Int) (d d' : Nat → ℝ) : Prop :=
  (∀ i j : Nat, i < dx → j < dx → (i : Int) + j = K → d' i = d j) ∧
  (∀ i : Nat, i < dx → (∀ j : Nat, j < dx → (i : Int) + j ≠ K) → d i = 0 ∧ d' i = 0)

/-- `d'` is `d` moved by `k` pixels; what is moved off the detector is zero. -/
def Moved (dx : Nat) (k : Int) (d d' : Nat → ℝ) : Prop :=
  (∀ i j : Nat, i < dx → j < dx → (i : Int) = j + k → d' i = d j) ∧
  (∀ j : Nat, j < dx → (∀ i : Nat, i < dx → (i : Int) ≠ j + k) → d j = 0) ∧
  (∀ i : Nat, i < dx → (∀ j : Nat, j < dx → (i : Int) ≠ j + k) → d' i = 0)

/-! ## Proofs -/

theorem spectrum_mirror (pd dx : Nat) {K : Int} {d d' : Nat → ℝ} (h : Mirrored dx K d d') (f : Nat) :
    spectrum pd dx d' (K / 2) f = starRingEnd ℂ (spectrum pd dx d (K / 2) f) := by
  unfold spectrum
  rw [map_sum]
  have hconj : ∀ i : Nat, starRingEnd ℂ ((d i : ℂ) *
      exp (2 * Real.pi * I * ((f : ℂ) * ((i : ℂ) - ((K / 2 : ℝ) : ℂ))) / pd)) =
      (d i : ℂ) * exp (2 * Real.pi * I * ((f : ℂ) * (((K : ℂ) - i) - ((K / 2 : ℝ) : ℂ))) / pd) := by
    intro i
    rw [map_mul, Complex.conj_ofReal, ← Complex.exp_conj]
    congr 2
    simp only [map_div₀, map_mul, map_sub, Complex.conj_ofReal, Complex.conj_I, map_ofNat,
      Complex.conj_natCast]
    push_cast
    ring
  simp only [hconj]
  classical
  let S : Finset Nat := (Finset.range dx).filter fun i => ∃ j : Nat, j < dx ∧ (i : Int) + j = K
  have hS : ∀ i, i ∈ S ↔ i < dx ∧ ∃ j : Nat, j < dx ∧ (i : Int) + j = K := by
    intro i; simp [S]
  have hsub : S ⊆ Finset.range dx := Finset.filter_subset _ _
  rw [← Finset.sum_subset hsub, ← Finset.sum_subset hsub]
  · refine Finset.sum_bij (fun i _ => (K - i).toNat) ?_ ?_ ?_ ?_
    · intro i hi
      obtain ⟨h1, j, h2, h3⟩ := (hS i).1 hi
      exact (hS _).2 ⟨by omega, i, h1, by omega⟩
    · intro i hi i' hi' e
      obtain ⟨h1, j, h2, h3⟩ := (hS i).1 hi
      obtain ⟨h1', j', h2', h3'⟩ := (hS i').1 hi'
      omega
    · intro i hi
      obtain ⟨h1, j, h2, h3⟩ := (hS i).1 hi
      exact ⟨j, (hS _).2 ⟨h2, i, h1, by omega⟩, by omega⟩
    · intro i hi
      obtain ⟨h1, j, h2, h3⟩ := (hS i).1 hi
      have e : (K - i).toNat = j := by omega
      rw [e, h.1 i j h1 h2 h3, ← h3]
      congr 3
      push_cast
      ring
  · intro i hi hn
    have hi := Finset.mem_range.1 hi
    have := (h.2 i hi fun j hj e => hn ((hS i).2 ⟨hi, j, hj, e⟩)).1
    rw [this]; simp
  · intro i hi hn
    have hi := Finset.mem_range.1 hi
    have := (h.2 i hi fun j hj e => hn ((hS i).2 ⟨hi, j, hj, e⟩)).2
    rw [this]; simp

theorem spectrum_move (pd dx : Nat) {k : Int} {d d' : Nat → ℝ} (h : Moved dx k d d') (center : ℝ)
    (f : Nat) : spectrum pd dx d' (center + k) f = spectrum pd dx d center f := by
  unfold spectrum
  classical
  let S : Finset Nat := (Finset.range dx).filter fun i => ∃ j : Nat, j < dx ∧ (i : Int) = j + k
  let T : Finset Nat := (Finset.range dx).filter fun j => ∃ i : Nat, i < dx ∧ (i : Int) = j + k
  have hS : ∀ i, i ∈ S ↔ i < dx ∧ ∃ j : Nat, j < dx ∧ (i : Int) = j + k := by intro i; simp [S]
  have hT : ∀ j, j ∈ T ↔ j < dx ∧ ∃ i : Nat, i < dx ∧ (i : Int) = j + k := by intro i; simp [T]
  rw [← Finset.sum_subset (Finset.filter_subset _ _ : S ⊆ Finset.range dx),
    ← Finset.sum_subset (Finset.filter_subset _ _ : T ⊆ Finset.range dx)]
  · refine Finset.sum_bij (fun i _ => ((i : Int) - k).toNat) ?_ ?_ ?_ ?_
    · intro i hi
      obtain ⟨h1, j, h2, h3⟩ := (hS i).1 hi
      exact (hT _).2 ⟨by omega, i, h1, by omega⟩
    · intro i hi i' hi' e
      obtain ⟨h1, j, h2, h3⟩ := (hS i).1 hi
      obtain ⟨h1', j', h2', h3'⟩ := (hS i').1 hi'
      omega
    · intro j hj
      obtain ⟨h1, i, h2, h3⟩ := (hT j).1 hj
      exact ⟨i, (hS _).2 ⟨h2, j, h1, h3⟩, by omega⟩
    · intro i hi
      obtain ⟨h1, j, h2, h3⟩ := (hS i).1 hi
      have e : ((i : Int) - k).toNat = j := by omega
      have e2 : (i : ℂ) = (j : ℂ) + (k : ℂ) := by exact_mod_cast congrArg (Int.cast : Int → ℂ) h3
      rw [e, h.1 i j h1 h2 h3, e2]
      congr 3
      push_cast
      ring
  · intro j hj hn
    have hj := Finset.mem_range.1 hj
    rw [h.2.1 j hj fun i hi e => hn ((hT j).2 ⟨hj, i, hi, e⟩)]; simp
  · intro i hi hn
    have hi := Finset.mem_range.1 hi
    rw [h.2.2 i hi fun j hj e => hn ((hS i).2 ⟨hi, j, hj, e⟩)]; simp

theorem near_neg (m : Nat) (U : ℝ) (a : Int) : a ∈ near m (-U) ↔ -a ∈ near m U := by
  unfold near
  rw [Finset.mem_filter, Finset.mem_filter, Finset.mem_Icc, Finset.mem_Icc]
  have e : |(-U) - (a : ℝ)| = |U - ((-a : Int) : ℝ)| := by
    rw [← abs_neg]; congr 1; push_cast; ring
  rw [e]
  constructor
  · rintro ⟨⟨h1, h2⟩, h3⟩; exact ⟨⟨by omega, by omega⟩, h3⟩
  · rintro ⟨⟨h1, h2⟩, h3⟩; exact ⟨⟨by omega, by omega⟩, h3⟩

theorem sum_near_neg (m : Nat) (U : ℝ) (F : Int → ℂ) :
    ∑ a ∈ near m (-U), F a = ∑ a ∈ near m U, F (-a) := by
  refine Finset.sum_bij (fun a _ => -a) ?_ ?_ ?_ ?_
  · intro a ha; exact (near_neg m U a).1 ha
  · intro a _ b _ e; simpa using e
  · intro b hb
    exact ⟨-b, (near_neg m U _).2 (by simpa using hb), by simp⟩
  · intro a _; simp

theorem abs_neg_sub (U : ℝ) (a : Int) : |(-U) - ((-a : Int) : ℝ)| = |U - (a : ℝ)| := by
  rw [← abs_neg]; congr 1; push_cast; ring

theorem gridWave_opposite (m : Nat) (U V : ℝ) (x y : Int) :
    gridWave m (-U) (-V) x y = starRingEnd ℂ (gridWave m U V x y) := by
  unfold gridWave
  rw [sum_near_neg, map_sum]
  refine Finset.sum_congr rfl fun a _ => ?_
  rw [sum_near_neg, map_sum]
  refine Finset.sum_congr rfl fun b _ => ?_
  rw [abs_neg_sub, abs_neg_sub, map_mul, Complex.conj_ofReal, ← Complex.exp_conj]
  congr 2
  simp only [map_neg, map_div₀, map_mul, map_add, Complex.conj_ofReal, Complex.conj_I, map_ofNat,
    Complex.conj_natCast, map_intCast]
  push_cast
  ring

theorem gridWave_quarter (m : Nat) (U V : ℝ) (x y : Int) :
    gridWave m (-V) U x y = gridWave m U V y (-x) := by
  unfold gridWave
  rw [sum_near_neg, Finset.sum_comm]
  refine Finset.sum_congr rfl fun b _ => Finset.sum_congr rfl fun a _ => ?_
  rw [abs_neg_sub, mul_comm (wtbl (roundf (|V - (a : ℝ)| * tblspcg)).toNat : ℝ)]
  congr 3
  push_cast
  ring

theorem gridWave_reflect (m : Nat) (U V : ℝ) (x y : Int) :
    gridWave m U (-V) x y = gridWave m U V x (-y) := by
  unfold gridWave
  refine Finset.sum_congr rfl fun a _ => ?_
  rw [sum_near_neg]
  refine Finset.sum_congr rfl fun b _ => ?_
  rw [abs_neg_sub]
  congr 3
  push_cast
  ring

/-- Equal backprojections give equal images. -/
theorem gridrec_congr {c c' : Call} (hdx : c'.dx = c.dx) (hx : c'.ngx = c.ngx) (hy : c'.ngy = c.ngy)
    {dy : Nat} {data data' : Nat → Nat → Nat → ℝ} {center center' : Nat → ℝ} {s r j : Nat} (hs : s < dy)
    (h : ∀ m x y, pdim c.dx = 2 * m → backproject c' m (data' s) (center' (2 * (s / 2))) x y =
      backproject c m (data s) (center (2 * (s / 2))) x y) :
    gridrec c' dy data' center' s r j = gridrec c dy data center s r j := by
  obtain ⟨m, x, y, h1, h2, h3, h4⟩ := gridrec_pixel_partial c dy data center s r j hs
  obtain ⟨m', x', y', h1', h2', h3', h4'⟩ := gridrec_pixel_partial c' dy data' center' s r j hs
  have em : m' = m := by rw [hdx] at h1'; omega
  subst em
  rw [hy] at h2'
  rw [hx] at h3'
  have ex : x' = x := h2'.trans h2.symm
  have ey : y' = y := h3'.trans h3.symm
  subst ex ey
  rw [h4, h4', h m' x' y' h1]

/-! ## The theorems -/

/-- **C156**: opposite views may replace each other.  If some projections of a slice are replaced by
the ones half a turn further, mirrored about the rotation centre (a multiple of half a pixel), the
image of the slice is the same. -/
theorem gridrec_opposite (c : Call) (dy : Nat) (data data' : Nat → Nat → Nat → ℝ) (center : Nat → ℝ)
    (theta' : Nat → ℝ) (s r j : Nat) (hs : s < dy) (K : Int) (hK : center (2 * (s / 2)) = K / 2)
    (h : ∀ p < c.dt, (theta' p = c.theta p ∧ ∀ i < c.dx, data' s p i = data s p i) ∨
      (theta' p = c.theta p + Real.pi ∧ Mirrored c.dx K (data s p) (data' s p))) :
    gridrec { c with theta := theta' } dy data' center s r j = gridrec c dy data center s r j := by
  refine gridrec_congr (c := c) (c' := { c with theta := theta' }) (data := data) (data' := data')
    (center := center) (center' := center) rfl rfl rfl hs fun m x y _ => ?_
  unfold backproject
  refine Finset.sum_congr rfl fun p hp => Finset.sum_congr rfl fun f _ => ?_
  rcases h p (Finset.mem_range.1 hp) with ⟨h1, h2⟩ | ⟨h1, h2⟩
  · have e : spectrum (2 * m) c.dx (data' s p) (center (2 * (s / 2))) f =
        spectrum (2 * m) c.dx (data s p) (center (2 * (s / 2))) f := by
      unfold spectrum
      exact Finset.sum_congr rfl fun i hi => by rw [h2 i (Finset.mem_range.1 hi)]
    simp only [h1, e]
  · simp only [h1, hK, Real.cos_add_pi, Real.sin_add_pi, mul_neg]
    rw [gridWave_opposite, spectrum_mirror _ _ h2, ← map_mul, Complex.conj_re]

/-- **C161**: `gridrec` is linear in the data. -/
theorem gridrec_sup (c : Call) (dy : Nat) (a b : ℝ) (d1 d2 : Nat → Nat → Nat → ℝ) (center : Nat → ℝ)
    (s r j : Nat) (hs : s < dy) :
    gridrec c dy (fun s p i => a * d1 s p i + b * d2 s p i) center s r j =
      a * gridrec c dy d1 center s r j + b * gridrec c dy d2 center s r j := by
  obtain ⟨m, x, y, h1, h2, h3, h4⟩ := gridrec_pixel_partial c dy d1 center s r j hs
  obtain ⟨m', x', y', h1', h2', h3', h4'⟩ := gridrec_pixel_partial c dy d2 center s r j hs
  obtain ⟨m3, x3, y3, g1, g2, g3, g4⟩ :=
    gridrec_pixel_partial c dy (fun s p i => a * d1 s p i + b * d2 s p i) center s r j hs
  obtain rfl : m' = m := by omega
  obtain rfl : m3 = m' := by omega
  obtain rfl : x' = x := h2'.trans h2.symm
  obtain rfl : y' = y := h3'.trans h3.symm
  obtain rfl : x3 = x' := g2.trans h2.symm
  obtain rfl : y3 = y' := g3.trans h3.symm
  have e : backproject c m3 (fun p i => a * d1 s p i + b * d2 s p i) (center (2 * (s / 2))) x3 y3 =
      a * backproject c m3 (d1 s) (center (2 * (s / 2))) x3 y3 +
        b * backproject c m3 (d2 s) (center (2 * (s / 2))) x3 y3 := by
    unfold backproject
    rw [Finset.mul_sum, Finset.mul_sum, ← Finset.sum_add_distrib]
    refine Finset.sum_congr rfl fun p _ => ?_
    rw [Finset.mul_sum, Finset.mul_sum, ← Finset.sum_add_distrib]
    refine Finset.sum_congr rfl fun f _ => ?_
    have es : spectrum (2 * m3) c.dx (fun i => a * d1 s p i + b * d2 s p i) (center (2 * (s / 2))) f =
        (a : ℂ) * spectrum (2 * m3) c.dx (d1 s p) (center (2 * (s / 2))) f +
          (b : ℂ) * spectrum (2 * m3) c.dx (d2 s p) (center (2 * (s / 2))) f := by
      unfold spectrum
      rw [Finset.mul_sum, Finset.mul_sum, ← Finset.sum_add_distrib]
      refine Finset.sum_congr rfl fun i _ => ?_
      push_cast
      ring
    rw [es, add_mul, Complex.add_re, mul_assoc (a : ℂ), mul_assoc (b : ℂ), Complex.re_ofReal_mul,
      Complex.re_ofReal_mul]
    ring
  rw [g4, h4, h4', e]
  ring

/-- **C156**: only the projections matter, not their order. -/
theorem gridrec_order (c : Call) (dy : Nat) (data : Nat → Nat → Nat → ℝ) (center : Nat → ℝ)
    (σ : Equiv.Perm (Fin c.dt)) (σ' : Nat → Nat) (hσ : ∀ p : Fin c.dt, σ' p = σ p) (s r j : Nat) (hs : s < dy) :
    gridrec { c with theta := fun p => c.theta (σ' p), filt := fun p => c.filt (σ' p) } dy
      (fun s p => data s (σ' p)) center s r j = gridrec c dy data center s r j := by
  refine gridrec_congr (c := c) (c' := { c with theta := fun p => c.theta (σ' p), filt := fun p => c.filt (σ' p) })
    (data := data) (data' := fun s p => data s (σ' p)) (center := center) (center' := center) rfl rfl rfl hs fun m x y _ => ?_
  unfold backproject
  dsimp only
  rw [← Fin.sum_univ_eq_sum_range (n := c.dt), ← Fin.sum_univ_eq_sum_range (n := c.dt)]
  simp only [hσ]
  exact Equiv.sum_comp σ (fun p : Fin c.dt => ∑ f ∈ Finset.Ico 1 m,
    2 * Real.pi / (2 * m : Nat) / c.dt * c.filt p f *
      (spectrum (2 * m) c.dx (data s p) (center (2 * (s / 2))) f *
        gridWave m (f * Real.cos (c.theta p)) (f * Real.sin (c.theta p)) x y).re)

/-- **C156**: if all projections are moved by whole pixels (nothing leaves the detector) and the
centre with them, the image is the same. -/
theorem gridrec_moved (c : Call) (dy : Nat) (data data' : Nat → Nat → Nat → ℝ) (center center' : Nat → ℝ)
    (s r j : Nat) (hs : s < dy) (k : Int) (hk : center' (2 * (s / 2)) = center (2 * (s / 2)) + k)
    (h : ∀ p < c.dt, Moved c.dx k (data s p) (data' s p)) :
    gridrec c dy data' center' s r j = gridrec c dy data center s r j := by
  refine gridrec_congr (c := c) (c' := c) (data := data) (data' := data') (center := center) (center' := center') rfl rfl rfl hs fun m x y _ => ?_
  unfold backproject
  refine Finset.sum_congr rfl fun p hp => Finset.sum_congr rfl fun f _ => ?_
  rw [hk, spectrum_move _ _ (h p (Finset.mem_range.1 hp))]

/-- The spectrum of a constant vanishes if the detector needs no padding. -/
theorem spectrum_const (n : Nat) (v center : ℝ) (f : Nat) (h1 : 1 ≤ f) (h2 : f < n) :
    spectrum n n (fun _ => v) center f = 0 := by
  have hn : (n : ℂ) ≠ 0 := by exact_mod_cast (show n ≠ 0 by omega)
  unfold spectrum
  have e : ∀ i ∈ Finset.range n, (v : ℂ) * exp (2 * Real.pi * I * ((f : ℂ) * ((i : ℂ) - center)) / n) =
      (v : ℂ) * exp (-(2 * Real.pi * I * ((f : ℂ) * center) / n)) *
        exp (2 * Real.pi * I * (f : ℂ) / n) ^ i := by
    intro i _
    rw [← Complex.exp_nat_mul, mul_assoc (v : ℂ), ← Complex.exp_add]
    congr 2
    ring
  rw [Finset.sum_congr rfl e, ← Finset.mul_sum]
  have hp : exp (2 * Real.pi * I * (f : ℂ) / n) ^ n = 1 := by
    rw [← Complex.exp_nat_mul]
    have : (n : ℂ) * (2 * Real.pi * I * (f : ℂ) / n) = 2 * Real.pi * I * ((f : Int) : ℂ) := by
      field_simp; push_cast; ring
    rw [this, exp_int_two_pi]
  have hne : exp (2 * Real.pi * I * (f : ℂ) / n) ≠ 1 := by
    intro h
    obtain ⟨k, hk⟩ := Complex.exp_eq_one_iff.1 h
    have hpi : (2 * Real.pi * I : ℂ) ≠ 0 := Complex.two_pi_I_ne_zero
    have : (f : ℂ) = k * n := by
      field_simp at hk
      have h3 : (2 * Real.pi * I : ℂ) * f = (2 * Real.pi * I : ℂ) * (k * n) := by
        linear_combination (2 * Real.pi * I : ℂ) * hk
      exact mul_left_cancel₀ hpi h3
    have h4 : (f : Int) = k * n := by exact_mod_cast this
    rcases lt_trichotomy k 0 with hk | hk | hk
    · nlinarith
    · subst hk; simp at h4; omega
    · nlinarith
  have hg := mul_neg_geom_sum (exp (2 * Real.pi * I * (f : ℂ) / n)) n
  rw [hp, sub_self] at hg
  rcases mul_eq_zero.1 hg with hg | hg
  · exact absurd (sub_eq_zero.1 hg).symm hne
  · rw [hg, mul_zero]

/-- **C157**: on a detector whose width is a power of two of at least 16, `gridrec` does not see
constants: adding to each projection a constant of its own changes nothing. -/
theorem gridrec_offset (c : Call) (dy : Nat) (data : Nat → Nat → Nat → ℝ) (center : Nat → ℝ)
    (v : Nat → Nat → ℝ) (e : Nat) (he : 4 ≤ e) (hdx : c.dx = 2 ^ e) (s r j : Nat) (hs : s < dy) :
    gridrec c dy (fun s p i => data s p i + v s p) center s r j = gridrec c dy data center s r j := by
  refine gridrec_congr (c := c) (c' := c) (data := data) (data' := fun s p i => data s p i + v s p)
    (center := center) (center' := center) rfl rfl rfl hs fun m x y hm => ?_
  have hd : c.dx = 2 * m := by rw [← hm, hdx, pdim_pow e he]
  unfold backproject
  refine Finset.sum_congr rfl fun p hp => Finset.sum_congr rfl fun f hf => ?_
  rw [Finset.mem_Ico] at hf
  have h1 : spectrum (2 * m) c.dx (fun i => data s p i + v s p) (center (2 * (s / 2))) f =
      spectrum (2 * m) c.dx (data s p) (center (2 * (s / 2))) f +
        spectrum (2 * m) c.dx (fun _ => v s p) (center (2 * (s / 2))) f := by
    unfold spectrum
    rw [← Finset.sum_add_distrib]
    exact Finset.sum_congr rfl fun i _ => by push_cast; ring
  have h2 := spectrum_const c.dx (v s p) (center (2 * (s / 2))) f hf.1 (by omega)
  rw [hd] at h1 h2 ⊢
  rw [h1, h2, add_zero]

/-! ## Other grids -/

/-- **C159**: a pixel depends on the grid only through its position relative to the rotation axis,
which is pixel `(n + 1) / 2` of a direction with `n` pixels. -/
theorem gridrec_grid (c : Call) (dy : Nat) (data : Nat → Nat → Nat → ℝ) (center : Nat → ℝ) (nx ny : Nat)
    (s r j r' j' : Nat) (hs : s < dy) (h1 : c.ngx ≤ pdim c.dx) (h2 : c.ngy ≤ pdim c.dx) (h3 : nx ≤ pdim c.dx)
    (h4 : ny ≤ pdim c.dx)
    (hj : (j : Int) - ((c.ngy + 1) / 2 : Nat) = (j' : Int) - ((ny + 1) / 2 : Nat))
    (hk : ((c.ngx - 1 - r : Nat) : Int) - ((c.ngx + 1) / 2 : Nat) =
      ((nx - 1 - r' : Nat) : Int) - ((nx + 1) / 2 : Nat)) :
    gridrec { c with ngx := nx, ngy := ny } dy data center s r' j' = gridrec c dy data center s r j := by
  obtain ⟨m, x, y, g1, g2, g3, g4⟩ := gridrec_pixel_partial c dy data center s r j hs
  obtain ⟨m', x', y', g1', g2', g3', g4'⟩ := gridrec_pixel_partial
    { c with ngx := nx, ngy := ny } dy data center s r' j' hs
  have em : m' = m := by
    have : pdim c.dx = 2 * m' := g1'
    omega
  subst em
  dsimp only at g2' g3'
  unfold axisOffset at g2 g3 g2' g3'
  rw [offset_eq m' _ (by omega)] at g2 g3 g2' g3'
  have ex : x' = x := by omega
  have ey : y' = y := by omega
  subst ex ey
  rw [g4, g4']
  rfl

/-- **C159**: the image on a grid of `n` pixels is the middle part of the one on `n + 2 k` pixels. -/
theorem gridrec_crop (c : Call) (dy : Nat) (data : Nat → Nat → Nat → ℝ) (center : Nat → ℝ) (k : Nat)
    (s r j : Nat) (hs : s < dy) (h1 : c.ngx + 2 * k ≤ pdim c.dx) (h2 : c.ngy + 2 * k ≤ pdim c.dx)
    (hr : r < c.ngx) :
    gridrec { c with ngx := c.ngx + 2 * k, ngy := c.ngy + 2 * k } dy data center s (r + k) (j + k) =
      gridrec c dy data center s r j :=
  gridrec_grid c dy data center _ _ s r j (r + k) (j + k) hs (by omega) (by omega) (by omega) (by omega)
    (by omega) (by omega)

/-- The middle of `n` pixels is at `(n - 1) / 2`; the rotation axis lies half a pixel behind it for
even and a whole pixel behind it for odd `n`. -/
theorem axis_not_middle (n : Nat) :
    2 * (((n + 1) / 2 : Nat) : Int) - ((n : Int) - 1) = if n % 2 = 0 then 1 else 2 := by
  split <;> omega

/-- A call with 30 detector pixels and grids of 5 and 9 pixels. -/
example : ∃ c : Call, c.ngx + 2 * 2 ≤ pdim c.dx ∧ c.ngy + 2 * 2 ≤ pdim c.dx ∧ 1 < c.ngx ∧ c.dx = 30 :=
  ⟨⟨1, 30, 5, 5, fun _ => 0, fun _ _ => 1⟩, by
    have := (pdim_spec 30).1
    exact ⟨by show 5 + 2 * 2 ≤ pdim 30; omega, by show 5 + 2 * 2 ≤ pdim 30; omega, by show 1 < 5; omega, rfl⟩⟩

/-! ## Turning the image -/

theorem backproject_quarter (c : Call) (m : Nat) (d : Nat → Nat → ℝ) (center : ℝ) (x y : Int) :
    backproject { c with theta := fun p => c.theta p + Real.pi / 2 } m d center x y =
      backproject c m d center y (-x) := by
  unfold backproject
  refine Finset.sum_congr rfl fun p _ => Finset.sum_congr rfl fun f _ => ?_
  simp only [Real.cos_add_pi_div_two, Real.sin_add_pi_div_two, mul_neg]
  rw [gridWave_quarter]

/-- **C158** (the part that holds): a quarter turn of all angles turns the image of a square grid of
`n < pdim` pixels by a quarter turn about its rotation axis, pixel `(n + 1) / 2` of both directions,
up to the quotient of the window at the distances `|x - 1|` and `|x + 1|` of the pixel from the
axis.  Missing: the two values of the window differ (`gridrec_quarter_wrong`). -/
theorem gridrec_quarter_partial (c : Call) (dy : Nat) (data : Nat → Nat → Nat → ℝ) (center : Nat → ℝ)
    (s r j n : Nat) (hs : s < dy) (hx : c.ngx = n) (hy : c.ngy = n) (hn : n < pdim c.dx) (hr : r < n)
    (hj : j < n) (r' : Nat) (hr' : r' + 2 * ((n + 1) / 2) + 1 = n + j) :
    window (pdim c.dx) ((j : Int) - ((n + 1) / 2 : Nat) + 1).natAbs *
      gridrec { c with theta := fun p => c.theta p + Real.pi / 2 } dy data center s r j =
    window (pdim c.dx) ((j : Int) - ((n + 1) / 2 : Nat) - 1).natAbs *
      gridrec c dy data center s r' (n - 1 - r) := by
  obtain ⟨m, x, y, h1, h2, h3, h4⟩ := gridrec_pixel_partial
    { c with theta := fun p => c.theta p + Real.pi / 2 } dy data center s r j hs
  obtain ⟨m', x', y', h1', h2', h3', h4'⟩ := gridrec_pixel_partial c dy data center s r' (n - 1 - r) hs
  have em : m' = m := by
    have : pdim c.dx = 2 * m := h1
    omega
  subst em
  have hnm : n < 2 * m' := by omega
  dsimp only at h2 h3
  rw [hy] at h2 h2'
  rw [hx] at h3 h3'
  unfold axisOffset at h2 h3 h2' h3'
  rw [offset_eq m' n (by omega)] at h2 h3 h2' h3'
  have ex : x' = y := by omega
  have ey : y' = -x := by omega
  have e1 : ((j : Int) - ((n + 1) / 2 : Nat) + 1) = x + 1 := by omega
  have e2 : ((j : Int) - ((n + 1) / 2 : Nat) - 1).natAbs = (-x + 1).natAbs := by omega
  rw [h4, h4', backproject_quarter, ex, ey, e1, e2, h1']
  have hb : ∀ z : Int, z.natAbs ≤ m' - 1 → window (2 * m') z.natAbs ≠ 0 := fun z hz =>
    (window_pos (2 * m') z.natAbs (by omega)).ne'
  have w1 := hb (x + 1) (by omega)
  have w2 := hb (y + 1) (by omega)
  have w3 := hb (-x + 1) (by omega)
  field_simp

/-- One projection of a detector with one pixel, a grid of 4 x 4 pixels and the lowest frequency. -/
noncomputable def quarterCall : Call where
  dt := 1
  dx := 1
  ngx := 4
  ngy := 4
  theta := fun _ => 0
  filt := fun _ j => if j = 1 then 1 else 0

theorem quarter_wave : 0 < (gridWave 8 1 0 0 1).re := by
  unfold gridWave
  rw [Complex.re_sum]
  have hw : ∀ (U : ℝ) (a : Int), a ∈ near 8 U →
      0 < (wtbl (roundf (|U - (a : ℝ)| * tblspcg)).toNat : ℝ) := by
    intro U a ha
    have := (Finset.mem_filter.1 ha).2
    have := conv_index this
    exact wtbl_pos (by simp only [ltbl] at this; omega)
  have hne : ∀ U : ℝ, (U = 0 ∨ U = 1) → (near 8 U).Nonempty := by
    intro U hU
    refine ⟨0, Finset.mem_filter.2 ⟨by simp, ?_⟩⟩
    rcases hU with rfl | rfl <;> norm_num
  refine Finset.sum_pos (fun a ha => ?_) (hne 1 (Or.inr rfl))
  rw [Complex.re_sum]
  refine Finset.sum_pos (fun b hb => ?_) (hne 0 (Or.inl rfl))
  rw [Complex.re_ofReal_mul]
  refine mul_pos (mul_pos (hw _ _ ha) (hw _ _ hb)) ?_
  have e : (-(2 * Real.pi * I * ((a : ℂ) * ((0 : Int) : ℂ) + (b : ℂ) * ((1 : Int) : ℂ)) / (2 * 8 : Nat)) : ℂ) =
      ((-(Real.pi * b / 8) : ℝ) : ℂ) * I := by
    push_cast; ring
  rw [e, Complex.exp_ofReal_mul_I_re]
  have hb2 := abs_le.1 (Finset.mem_filter.1 hb).2
  have hp := Real.pi_pos
  refine Real.cos_pos_of_mem_Ioo ⟨?_, ?_⟩ <;> nlinarith

/-- **C158** (refutation): after a quarter turn of the only angle, a pixel of the image is not the
corresponding pixel of the image before. -/
theorem gridrec_quarter_wrong :
    gridrec { quarterCall with theta := fun _ => 0 + Real.pi / 2 } 1 (fun _ _ _ => 1) (fun _ => 0) 0 1 1 ≠
      gridrec quarterCall 1 (fun _ _ _ => 1) (fun _ => 0) 0 0 2 := by
  have hpd : pdim quarterCall.dx = 2 * 8 := by simp [quarterCall, pdim, pdimFrom]
  have hq := gridrec_quarter_partial quarterCall 1 (fun _ _ _ => 1) (fun _ => 0) 0 1 1 4 (by norm_num) rfl rfl
    (by rw [hpd]; norm_num) (by norm_num) (by norm_num) 0 (by norm_num)
  rw [hpd] at hq
  have hpos : 0 < gridrec quarterCall 1 (fun _ _ _ => 1) (fun _ => 0) 0 0 2 := by
    obtain ⟨m, x, y, h1, h2, h3, h4⟩ := gridrec_pixel_partial quarterCall 1 (fun _ _ _ => 1) (fun _ => 0) 0 0 2
      (by norm_num)
    have hm : m = 8 := by omega
    subst hm
    have hx : x = 0 := by rw [h2]; decide
    have hy : y = 1 := by rw [h3]; decide
    subst hx hy
    rw [h4]
    have w1 := window_pos (2 * 8) (0 + 1 : Int).natAbs (by decide)
    have w2 := window_pos (2 * 8) (1 + 1 : Int).natAbs (by decide)
    have w3 := pswfNorm_pos
    refine mul_pos (by positivity) ?_
    unfold backproject
    show 0 < ∑ p ∈ Finset.range 1, _
    rw [Finset.sum_range_one, Finset.sum_eq_single 1]
    · have hs : spectrum (2 * 8) quarterCall.dx (fun _ => 1) 0 1 = 1 := by
        simp [spectrum, quarterCall]
      have hth : quarterCall.theta 0 = 0 := rfl
      have hf : quarterCall.filt 0 1 = 1 := rfl
      have hd : quarterCall.dt = 1 := rfl
      rw [hs, hth, hf, hd, Real.cos_zero, Real.sin_zero, one_mul, Nat.cast_one, mul_one, mul_zero]
      have h1 := quarter_wave
      have h2 := Real.pi_pos
      exact mul_pos (by positivity) (by rw [mul_one]; exact h1)
    · intro f _ hf
      have : quarterCall.filt 0 f = 0 := if_neg hf
      rw [this, mul_zero, zero_mul]
    · intro h; simp at h
  intro h
  have h0 : ((1 : Nat) : Int) - (((4 + 1) / 2 : Nat) : Int) + 1 = 0 := by decide
  have h2 : (((1 : Nat) : Int) - (((4 + 1) / 2 : Nat) : Int) - 1).natAbs = 2 := by decide
  rw [h0, h2] at hq
  have e : window (2 * 8) 0 = window (2 * 8) 2 := by
    have hq' : window (2 * 8) 0 * gridrec quarterCall 1 (fun _ _ _ => 1) (fun _ => 0) 0 0 2 =
        window (2 * 8) 2 * gridrec quarterCall 1 (fun _ _ _ => 1) (fun _ => 0) 0 0 2 := by
      rw [← h] at hq ⊢
      exact hq
    exact mul_right_cancel₀ hpos.ne' hq'
  have hlt : window (2 * 8) 2 < window (2 * 8) 0 := by
    unfold window
    refine wtbl_lt ?_ ?_
    · have h1 : roundf (((0 : Nat) : ℝ) * ((ltbl : ℝ) / (((2 * 8 / 2 - 1 : Nat) : ℝ) + 1 / 2))) = 0 := by
        unfold roundf; norm_num
      have h2 : (1 : Int) ≤ roundf (((2 : Nat) : ℝ) * ((ltbl : ℝ) / (((2 * 8 / 2 - 1 : Nat) : ℝ) + 1 / 2))) := by
        unfold roundf
        rw [Int.le_floor]
        norm_num [ltbl]
      omega
    · have := (pswf_index (linv := 2 * 8 / 2 - 1) (i := 2) (by norm_num)).2
      simp only [ltbl] at this ⊢
      omega
  exact absurd e.symm hlt.ne

/-! ## Cases that meet the hypotheses -/

/-- Three detector pixels and the centre in the middle. -/
example : Mirrored 3 2 (fun i => (i : ℝ) + 1) (fun i => 3 - (i : ℝ)) := by
  constructor
  · intro i j hi hj h
    have e : (i : ℝ) + j = 2 := by exact_mod_cast congrArg (Int.cast : Int → ℝ) h
    show 3 - (i : ℝ) = (j : ℝ) + 1
    linarith
  · intro i hi h
    exact absurd (show ((i : Int) + (2 - i : Nat)) = 2 by omega) (h (2 - i) (by omega))

example : Moved 3 1 (fun i => if i = 2 then 0 else (i : ℝ) + 1) (fun i => (i : ℝ)) := by
  refine ⟨fun i j hi hj h => ?_, fun j hj h => ?_, fun i hi h => ?_⟩
  · have : i = j + 1 := by omega
    subst this
    have : j ≠ 2 := by omega
    simp [this]
  · have : j = 2 := by
      by_contra hne
      exact h (j + 1) (by omega) (by omega)
    simp [this]
  · have : i = 0 := by
      by_contra hne
      exact h (i - 1) (by omega) (by omega)
    simp [this]

end Tomopy.Gridrec
