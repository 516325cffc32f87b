import Verif.Gridrec.Slices
import Verif.Gridrec.Tables
import Mathlib.Algebra.BigOperators.Intervals

/-!
# gridrec: the value of a pixel (C70, C71)
-/

namespace Tomopy.Gridrec

open Complex

/-! ## Specification -/

/-- The transform of a projection about the detector position `center`. -/
noncomputable def spectrum (pd dx : Nat) (d : Nat → ℝ) (center : ℝ) (f : Nat) : ℂ :=
  ∑ i ∈ Finset.range dx, (d i : ℂ) * exp (2 * Real.pi * I * ((f : ℂ) * ((i : ℂ) - center)) / pd)

/-- The grid frequencies within two of `U`. -/
noncomputable def near (m : Nat) (U : ℝ) : Finset Int :=
  (Finset.Icc (1 - (m : Int)) (m - 1)).filter fun a => |U - (a : ℝ)| ≤ 2

/-- The plane wave of frequency `(U, V)` at the pixel `(x, y)`, replaced by the waves of the grid
frequencies near it, weighted by the tabulated window. -/
noncomputable def gridWave (m : Nat) (U V : ℝ) (x y : Int) : ℂ :=
  ∑ a ∈ near m U, ∑ b ∈ near m V,
    ((wtbl (roundf (|U - (a : ℝ)| * tblspcg)).toNat *
      wtbl (roundf (|V - (b : ℝ)| * tblspcg)).toNat : ℝ) : ℂ) *
      exp (-(2 * Real.pi * I * ((a : ℂ) * (x : ℂ) + (b : ℂ) * (y : ℂ)) / (2 * m : Nat)))

/-- The filtered backprojection of one slice at the pixel `(x, y)`. -/
noncomputable def backproject (c : Call) (m : Nat) (d : Nat → Nat → ℝ) (center : ℝ) (x y : Int) : ℝ :=
  ∑ p ∈ Finset.range c.dt, ∑ f ∈ Finset.Ico 1 m,
    2 * Real.pi / (2 * m : Nat) / c.dt * c.filt p f *
      (spectrum (2 * m) c.dx (d p) center f *
        gridWave m (f * Real.cos (c.theta p)) (f * Real.sin (c.theta p)) x y).re

/-! ## Proof -/

theorem ph_period (pd : Nat) (hpd : pd ≠ 0) (x y a b s t : Int) :
    ph pd (x + s * pd) (y + t * pd) a b = ph pd x y a b := by
  have hp : (pd : ℂ) ≠ 0 := by exact_mod_cast hpd
  unfold ph
  have e : -(2 * Real.pi * I * ((a : ℂ) * ((x + s * pd : Int) : ℂ) + (b : ℂ) * ((y + t * pd : Int) : ℂ))
      / pd) = 2 * Real.pi * I * ((-(a * s + b * t) : Int) : ℂ) +
        -(2 * Real.pi * I * ((a : ℂ) * (x : ℂ) + (b : ℂ) * (y : ℂ)) / pd) := by
    push_cast; field_simp; ring
  rw [e, Complex.exp_add, exp_int_two_pi, one_mul]

theorem exp_pi_int (n : Int) : exp (-(Real.pi * I * n)) = ((-1 : ℝ) ^ n.natAbs : ℝ) := by
  have h1 : exp (-(Real.pi * I * n)) = (-1 : ℂ) ^ (-n) := by
    rw [← Complex.exp_pi_mul_I, ← Complex.exp_int_mul]
    congr 1
    push_cast; ring
  rw [h1]
  push_cast
  rcases Int.natAbs_eq n with h | h
  · generalize n.natAbs = k at h
    subst h
    rw [zpow_neg, zpow_natCast, ← inv_pow]
    norm_num
  · generalize n.natAbs = k at h
    subst h
    rw [neg_neg, zpow_natCast]

theorem ph_centre (m : Nat) (hm : 1 ≤ m) (x y a b : Int) :
    ph (2 * m) x y (a + m) (b + m) = ((-1 : ℝ) ^ (x + y).natAbs : ℝ) *
      exp (-(2 * Real.pi * I * ((a : ℂ) * (x : ℂ) + (b : ℂ) * (y : ℂ)) / (2 * m : Nat))) := by
  have hp : (m : ℂ) ≠ 0 := by exact_mod_cast (by omega : m ≠ 0)
  unfold ph
  rw [← exp_pi_int, ← Complex.exp_add]
  congr 1
  push_cast; field_simp; ring

theorem mem_box (m : Nat) (U : ℝ) (a : Int) :
    a + m ∈ intRange (box (2 * m) (U + (2 * m / 2 : Nat))).1 (box (2 * m) (U + (2 * m / 2 : Nat))).2 ↔
      a ∈ near m U := by
  have e : (2 * m / 2 : Nat) = m := by omega
  rw [e]
  have hi : ∀ lo hi z : Int, z ∈ intRange lo hi ↔ lo ≤ z ∧ z ≤ hi := by
    intro lo hi z
    refine ⟨fun h => intRange_mem h, fun h => ?_⟩
    unfold intRange
    rw [List.mem_map]
    exact ⟨(z - lo).toNat, List.mem_range.2 (by omega), by omega⟩
  rw [hi]
  unfold near box
  rw [Finset.mem_filter, Finset.mem_Icc, abs_le]
  dsimp only
  have c1 : ⌈U + (m : ℝ) - bigL2⌉ ≤ a + m ↔ U - a ≤ 2 := by
    rw [Int.ceil_le]
    push_cast [bigL2]
    constructor <;> intro h <;> linarith
  have c2 : a + m ≤ ⌊U + (m : ℝ) + bigL2⌋ ↔ -2 ≤ U - a := by
    rw [Int.le_floor]
    push_cast [bigL2]
    constructor <;> intro h <;> linarith
  rw [← c1, ← c2]
  generalize ⌈U + (m : ℝ) - bigL2⌉ = A
  generalize ⌊U + (m : ℝ) + bigL2⌋ = B
  push_cast
  split_ifs <;> omega

theorem intRange_sum (m : Nat) (U : ℝ) (g : Int → ℂ) :
    ((intRange (box (2 * m) (U + (2 * m / 2 : Nat))).1
      (box (2 * m) (U + (2 * m / 2 : Nat))).2).map g).sum = ∑ a ∈ near m U, g (a + m) := by
  have hmem := mem_box m U
  have hnd : (intRange (box (2 * m) (U + (2 * m / 2 : Nat))).1
      (box (2 * m) (U + (2 * m / 2 : Nat))).2).Nodup := by
    unfold intRange
    exact List.Nodup.map (fun a b h => by omega) List.nodup_range
  generalize intRange (box (2 * m) (U + (2 * m / 2 : Nat))).1
      (box (2 * m) (U + (2 * m / 2 : Nat))).2 = l at hmem hnd
  rw [← List.sum_toFinset g hnd]
  refine (Finset.sum_bij (fun a _ => a + (m : Int)) ?_ ?_ ?_ ?_).symm
  · intro a ha
    exact List.mem_toFinset.2 ((hmem a).2 ha)
  · intro a _ b _ h
    omega
  · intro b hb
    have hb' := List.mem_toFinset.1 hb
    refine ⟨b - m, (hmem _).1 (by rwa [sub_add_cancel]), sub_add_cancel _ _⟩
  · intro a _
    rfl

theorem wsum_eq (m : Nat) (hm : 1 ≤ m) (co si : ℝ) (f : Nat) (x y : Int) :
    wsum (2 * m) co si f x y =
      ((-1 : ℝ) ^ (x + y).natAbs : ℝ) * gridWave m (f * co) (f * si) x y := by
  unfold wsum gridWave
  dsimp only
  rw [intRange_sum, Finset.mul_sum]
  refine Finset.sum_congr rfl fun a _ => ?_
  rw [intRange_sum, Finset.mul_sum]
  refine Finset.sum_congr rfl fun b _ => ?_
  rw [ph_centre m hm]
  have e : (2 * m / 2 : Nat) = m := by omega
  rw [e]
  have e1 : ∀ (U : ℝ) (z : Int), U + (m : ℝ) - ((z + m : Int) : ℝ) = U - z := by
    intro U z; push_cast; ring
  rw [e1, e1]
  ring

theorem spectrum_eq (pd dt dx : Nat) (hpd : pd ≠ 0) (hdx : dx ≤ pd) (filt : Nat → ℝ) (center : ℝ)
    (d : Nat → ℝ) (f : Nat) :
    filphase pd dt filt center f * dftBack pd (sinoRow dx d fun _ => 0) f =
      ((Real.pi / pd / dt * filt f : ℝ) : ℂ) * spectrum pd dx d center f := by
  have hp : (pd : ℂ) ≠ 0 := by exact_mod_cast hpd
  unfold filphase dftBack spectrum
  have hph : ((Real.cos (f * (2 * Real.pi * center / pd)) : ℝ) : ℂ) -
      I * ((Real.sin (f * (2 * Real.pi * center / pd)) : ℝ) : ℂ) =
      exp (-(2 * Real.pi * I * ((f : ℂ) * center) / pd)) := by
    have : -(2 * Real.pi * I * ((f : ℂ) * center) / pd) =
        ((-(f * (2 * Real.pi * center / pd)) : ℝ) : ℂ) * I := by
      push_cast; ring
    rw [this, Complex.exp_mul_I, ← Complex.ofReal_cos, ← Complex.ofReal_sin, Real.cos_neg,
      Real.sin_neg]
    push_cast; ring
  dsimp only
  rw [hph]
  have hsub : Finset.range dx ⊆ Finset.range pd := by
    intro i hi; rw [Finset.mem_range] at *; omega
  rw [← Finset.sum_subset hsub]
  · rw [Finset.mul_sum, Finset.mul_sum]
    refine Finset.sum_congr rfl fun i hi => ?_
    have e : exp (2 * Real.pi * I * ((f : ℂ) * ((i : ℂ) - center)) / pd) =
        exp (-(2 * Real.pi * I * ((f : ℂ) * center) / pd)) *
          exp (2 * Real.pi * I * ((i : ℂ) * f) / pd) := by
      rw [← Complex.exp_add]
      congr 1
      ring
    rw [e]
    unfold sinoRow
    rw [if_pos (Finset.mem_range.1 hi)]
    push_cast
    ring
  · intro i _ hi
    unfold sinoRow
    rw [if_neg (by simpa using hi), zero_mul]

theorem list_sum_re (l : List Nat) (g : Nat → ℂ) : (l.map g).sum.re = (l.map fun x => (g x).re).sum := by
  induction l with
  | nil => simp
  | cons x l ih => simp [ih]

theorem sum_range_list (n : Nat) (g : Nat → ℝ) : ((List.range n).map g).sum = ∑ i ∈ Finset.range n, g i := by
  induction n with
  | zero => simp
  | succ n ih => rw [List.range_succ, List.map_append, List.sum_append, ih, Finset.sum_range_succ]; simp

theorem sum_range'_list (n : Nat) (g : Nat → ℝ) :
    ((List.range' 1 n).map g).sum = ∑ i ∈ Finset.Ico 1 (n + 1), g i := by
  induction n with
  | zero => simp
  | succ n ih =>
    rw [List.range'_concat, List.map_append, List.sum_append, ih,
      Finset.sum_Ico_succ_top (show 1 ≤ n + 1 by omega)]
    simp [Nat.add_comm]

theorem dft2_single (c : Call) (m : Nat) (hm : pdim c.dx = 2 * m) (hm8 : 8 ≤ m) (center : ℝ)
    (d : Nat → Nat → ℝ) (x y : Int) :
    (dft2 (pdim c.dx) (pairH c center d fun _ _ => 0) x y).re =
      (-1) ^ (x + y).natAbs * backproject c m d center x y := by
  have hdx := (pdim_spec c.dx).1
  rw [dft2_pairH, list_sum_re, sum_range_list]
  unfold backproject
  rw [Finset.mul_sum]
  refine Finset.sum_congr rfl fun p _ => ?_
  rw [list_sum_re, sum_range'_list]
  have e : pdim c.dx / 2 - 1 + 1 = m := by omega
  rw [e, Finset.mul_sum]
  refine Finset.sum_congr rfl fun f hf => ?_
  rw [Finset.mem_Ico] at hf
  rw [dftBack_real _ _ (by omega) _ _ (by omega), ← map_mul, Complex.add_re, Complex.conj_re]
  rw [mul_assoc, spectrum_eq _ _ _ (by omega) hdx, hm, wsum_eq m (by omega)]
  have e2 : ((((-1 : ℝ) ^ (x + y).natAbs : ℝ) : ℂ) *
      gridWave m (f * Real.cos (c.theta p)) (f * Real.sin (c.theta p)) x y *
      (((Real.pi / (2 * m : Nat) / c.dt * c.filt p f : ℝ) : ℂ) * spectrum (2 * m) c.dx (d p) center f))
      = (((-1 : ℝ) ^ (x + y).natAbs * (Real.pi / (2 * m : Nat) / c.dt * c.filt p f) : ℝ) : ℂ) *
        (spectrum (2 * m) c.dx (d p) center f *
          gridWave m (f * Real.cos (c.theta p)) (f * Real.sin (c.theta p)) x y) := by
    push_cast; ring
  rw [e2, Complex.re_ofReal_mul]
  ring

/-- C70, C71 (part): the value of every pixel.  It is the sum over projections and frequencies of the
filtered transform of the projection about the rotation centre, multiplied by the gridded wave of
that frequency and direction at the pixel's position `(x, y)` relative to the rotation axis, and
divided by the window.  The checkerboard sign cancels.  Missing for the full property: the window is
evaluated one pixel off (`correction_asymmetric`), and slices at odd positions use the centre of the
slice before them. -/
theorem gridrec_pixel_partial (c : Call) (dy : Nat) (data : Nat → Nat → Nat → ℝ)
    (center : Nat → ℝ) (s r j : Nat) (hs : s < dy) :
    ∃ m x y, pdim c.dx = 2 * m ∧ x = axisOffset (2 * m) c.ngy j ∧
      y = axisOffset (2 * m) c.ngx (c.ngx - 1 - r) ∧
      gridrec c dy data center s r j = pswfNorm ^ 2 /
        (window (2 * m) (x + 1).natAbs * window (2 * m) (y + 1).natAbs) *
        backproject c m (data s) (center (2 * (s / 2))) x y := by
  obtain ⟨m, hm, hm8⟩ := pdim_even c.dx
  refine ⟨m, _, _, hm, rfl, rfl, ?_⟩
  rw [gridrec_slices_partial c dy data center s r j hs]
  unfold gridrec
  simp only [Nat.zero_div, Nat.mul_zero, Nat.zero_mod, if_true, zero_add, lt_irrefl, if_false]
  obtain ⟨t1, h1⟩ := wrapIdx_axis (pdim c.dx) c.ngy j
  obtain ⟨t2, h2⟩ := wrapIdx_axis (pdim c.dx) c.ngx (c.ngx - 1 - r)
  have hper : ∀ H : Int → Int → ℂ, dft2 (pdim c.dx) H (wrapIdx (pdim c.dx) c.ngy j)
      (wrapIdx (pdim c.dx) c.ngx (c.ngx - 1 - r)) = dft2 (pdim c.dx) H
        (axisOffset (pdim c.dx) c.ngy j) (axisOffset (pdim c.dx) c.ngx (c.ngx - 1 - r)) := by
    intro H
    unfold dft2
    refine Finset.sum_congr rfl fun a _ => Finset.sum_congr rfl fun b _ => ?_
    have := ph_period (pdim c.dx) (by omega) (axisOffset (pdim c.dx) c.ngy j)
      (axisOffset (pdim c.dx) c.ngx (c.ngx - 1 - r)) a b t1 t2
    rw [← h1, ← h2] at this
    unfold ph at this
    simp only [Int.cast_natCast] at this
    rw [this]
  rw [hper, dft2_single c m hm hm8, hm, correction_partial m c.ngx c.ngy j _ (by omega)]
  generalize axisOffset (2 * m) c.ngy j = x
  generalize axisOffset (2 * m) c.ngx (c.ngx - 1 - r) = y
  have hsq : ((-1 : ℝ) ^ (x + y).natAbs) * (-1) ^ (x + y).natAbs = 1 := by
    rw [← pow_add, ← two_mul, pow_mul]; norm_num
  linear_combination (pswfNorm ^ 2 / (window (2 * m) (x + 1).natAbs * window (2 * m) (y + 1).natAbs) *
    backproject c m (data s) (center (2 * (s / 2))) x y) * hsq

end Tomopy.Gridrec
