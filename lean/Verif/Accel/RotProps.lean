import Verif.Accel.RotModel
import Mathlib.Tactic.Ring
import Mathlib.Tactic.LinearCombination
import Mathlib.Tactic.Linarith
import Mathlib.Tactic.FieldSimp
import Mathlib.Tactic.NormNum
import Mathlib.Tactic.Positivity

/-! C136: the rotations of the accelerated reconstructions. -/

set_option linter.unusedSectionVars false

namespace Tomopy.Accel

/-! ### Specification: turning about a point -/

/-- `q` is `p` turned about `c` by `theta` (clockwise in a picture whose second axis points down). -/
def TurnedBy (c : ℝ × ℝ) (theta : ℝ) (p q : ℝ × ℝ) : Prop :=
  q.1 - c.1 = Real.cos theta * (p.1 - c.1) + Real.sin theta * (p.2 - c.2) ∧
  q.2 - c.2 = -Real.sin theta * (p.1 - c.1) + Real.cos theta * (p.2 - c.2)

/-- The middle of a grid whose pixels are the points `0, …, n-1` and `0, …, m-1`. -/
noncomputable def middle (n m : Nat) : ℝ × ℝ := ((n - 1) / 2, (m - 1) / 2)

theorem rot_turns (cx cy theta : ℝ) (p q : ℝ × ℝ) :
    (rotMatrix cx cy theta 1).map p = q ↔ TurnedBy (cx, cy) theta p q := by
  unfold TurnedBy
  simp only [rotMatrix, Affine.map, one_mul, Prod.ext_iff]
  constructor
  · rintro ⟨h1, h2⟩
    exact ⟨by linear_combination -h1, by linear_combination -h2⟩
  · rintro ⟨h1, h2⟩
    exact ⟨by linear_combination -h1, by linear_combination -h2⟩

/-- **C136** The matrices keep the centre, -/
theorem rot_center (cx cy theta : ℝ) : (rotMatrix cx cy theta 1).map (cx, cy) = (cx, cy) :=
  (rot_turns _ _ _ _ _).2 ⟨by simp, by simp⟩

/-- **C136** the rotation by `-theta` undoes the one by `theta` (forward and backward rotation of a
projection), -/
theorem rot_undo (cx cy theta : ℝ) (p : ℝ × ℝ) :
    (rotMatrix cx cy (-theta) 1).map ((rotMatrix cx cy theta 1).map p) = p := by
  rw [rot_turns]
  obtain ⟨h1, h2⟩ := (rot_turns cx cy theta p _).1 rfl
  have hc := Real.cos_sq_add_sin_sq theta
  unfold TurnedBy
  rw [h1, h2, Real.cos_neg, Real.sin_neg]
  constructor
  · linear_combination (p.1 - cx) * (-hc)
  · linear_combination (p.2 - cy) * (-hc)

/-- **C136** distances are kept, -/
theorem rot_dist (cx cy theta : ℝ) (p q : ℝ × ℝ) :
    (((rotMatrix cx cy theta 1).map p).1 - ((rotMatrix cx cy theta 1).map q).1) ^ 2 +
      (((rotMatrix cx cy theta 1).map p).2 - ((rotMatrix cx cy theta 1).map q).2) ^ 2 =
    (p.1 - q.1) ^ 2 + (p.2 - q.2) ^ 2 := by
  have hc := Real.cos_sq_add_sin_sq theta
  simp only [rotMatrix, Affine.map, one_mul]
  linear_combination ((p.1 - q.1) ^ 2 + (p.2 - q.2) ^ 2) * hc

/-- **C136** and the point read for a pixel of the result is the point that is moved there. -/
theorem rot_src (cx cy theta : ℝ) (p q : ℝ × ℝ) :
    (rotMatrix cx cy theta 1).src q = p ↔ (rotMatrix cx cy theta 1).map p = q := by
  have hc := Real.cos_sq_add_sin_sq theta
  have hD : (rotMatrix cx cy theta 1).m00 * (rotMatrix cx cy theta 1).m11 -
      (rotMatrix cx cy theta 1).m01 * (rotMatrix cx cy theta 1).m10 = 1 := by
    simp only [rotMatrix, one_mul]; linear_combination hc
  have e : (rotMatrix cx cy theta 1).src q = (rotMatrix cx cy (-theta) 1).map q := by
    simp only [Affine.src, hD]
    simp only [rotMatrix, Affine.map, one_mul, Real.cos_neg, Real.sin_neg, ne_eq, one_ne_zero,
      not_false_eq_true, if_true, div_one, mul_one, neg_neg, Prod.mk.injEq]
    constructor
    · linear_combination cx * hc
    · linear_combination cy * hc
  rw [e]
  constructor
  · rintro rfl
    have := rot_undo cx cy (-theta) q
    rwa [neg_neg] at this
  · rintro rfl
    exact rot_undo cx cy theta p

/-! ### Angles -/

theorem deg_rad (theta : ℝ) : ofDeg (toDeg theta) = theta := by
  unfold ofDeg toDeg
  have := Real.pi_ne_zero
  field_simp

theorem fmod_eq (x y : ℝ) : ∃ k : ℤ, fmod x y = x - k * y := by
  unfold fmod
  split
  · exact ⟨⌊x / y⌋, by ring⟩
  · exact ⟨⌈x / y⌉, by ring⟩

/-- **C136** The reduction by `fmodf` does not change the rotation. -/
theorem angle_reduced (cx cy theta : ℝ) (s : ℝ) :
    rotMatrix cx cy (thetaP theta) s = rotMatrix cx cy (theta + Real.pi / 2) s ∧
    rotMatrix cx cy (-thetaP theta) s = rotMatrix cx cy (-(theta + Real.pi / 2)) s := by
  obtain ⟨k, hk⟩ := fmod_eq (theta + Real.pi / 2) (2 * Real.pi)
  have h1 : Real.cos (thetaP theta) = Real.cos (theta + Real.pi / 2) := by
    rw [thetaP, hk, Real.cos_sub_int_mul_two_pi]
  have h2 : Real.sin (thetaP theta) = Real.sin (theta + Real.pi / 2) := by
    rw [thetaP, hk, Real.sin_sub_int_mul_two_pi]
  unfold rotMatrix
  rw [Real.cos_neg, Real.sin_neg, Real.cos_neg (theta + _), Real.sin_neg (theta + _), h1, h2]
  exact ⟨rfl, rfl⟩

/-! ### Centres -/

/-- The CPU version turns about pixel `n / 2` (cut to an integer). -/
theorem cpuCenter_eq (n : Nat) : cpuCenter n = (n / 2 : Nat) := by
  unfold cpuCenter
  rw [Int.floor_eq_iff, Int.cast_natCast]
  have h := Nat.div_add_mod n 2
  have hq : (2 : ℚ) * ((n / 2 : Nat) : ℚ) + ((n % 2 : Nat) : ℚ) = n := by exact_mod_cast h
  rcases Nat.mod_two_eq_zero_or_one n with h0 | h0
  · rw [if_pos h0]
    rw [h0] at hq
    rw [Nat.cast_zero] at hq
    constructor <;> linarith
  · rw [if_neg (by omega)]
    rw [h0] at hq
    rw [Nat.cast_one] at hq
    constructor <;> linarith

/-- **C136** The GPU versions turn about the middle of the grid, the ones for integers and floats in
the same way. -/
theorem gpu_middle (nx ny : Nat) (theta : ℝ) (p q : ℝ × ℝ) :
    gpuMatrixFloat nx ny theta (toDeg theta) = gpuMatrixInt nx ny theta ∧
    ((gpuMatrixInt nx ny theta).map p = q ↔ TurnedBy (middle nx ny) theta p q) := by
  constructor
  · simp only [gpuMatrixFloat, gpuMatrixInt, deg_rad, rotMatrix, one_mul]
  · have : middle nx ny = (gpuCenter nx, gpuCenter ny) := by
      simp only [middle, gpuCenter, Prod.mk.injEq]; constructor <;> ring
    rw [gpuMatrixInt, rot_turns, this]

/-- The CPU version turns about the point `(ny / 2, nx / 2)`, cut to integers. -/
theorem cpu_point (nx ny : Nat) (theta : ℝ) (p q : ℝ × ℝ) :
    (cpuMatrix nx ny theta).map p = q ↔
      TurnedBy (((ny / 2 : Nat) : ℝ), ((nx / 2 : Nat) : ℝ)) theta p q := by
  rw [cpuMatrix, rot_turns, deg_rad, cpuCenter_eq, cpuCenter_eq, Int.cast_natCast, Int.cast_natCast]

theorem turned_center {c c' : ℝ × ℝ} {theta : ℝ} (ht : Real.cos theta ≠ 1)
    (h : ∀ p q, TurnedBy c theta p q ↔ TurnedBy c' theta p q) : c = c' := by
  have h0 : TurnedBy c theta c c := ⟨by simp, by simp⟩
  obtain ⟨h1, h2⟩ := (h c c).1 h0
  have hc := Real.cos_sq_add_sin_sq theta
  have k1 : (2 - 2 * Real.cos theta) * (c.1 - c'.1) = 0 := by
    linear_combination (1 - Real.cos theta) * h1 + Real.sin theta * h2 + (-(c.1 - c'.1)) * hc
  have k2 : (2 - 2 * Real.cos theta) * (c.2 - c'.2) = 0 := by
    linear_combination (1 - Real.cos theta) * h2 - Real.sin theta * h1 + (-(c.2 - c'.2)) * hc
  have hne : 2 - 2 * Real.cos theta ≠ 0 := fun e => ht (by linarith)
  have e1 := (mul_eq_zero.1 k1).resolve_left hne
  have e2 := (mul_eq_zero.1 k2).resolve_left hne
  exact Prod.ext (by linarith) (by linarith)

/-- **C136 (partial)** The CPU version turns about the middle of the grid (as seen by the rest of the
code: rows of `nx` pixels, `ny` of them), and so agrees with the GPU, exactly for square grids of odd
size. -/
theorem cpu_middle_iff_partial (nx ny : Nat) (theta : ℝ) (ht : Real.cos theta ≠ 1) :
    (∀ p q, (cpuMatrix nx ny theta).map p = q ↔ TurnedBy (middle nx ny) theta p q) ↔
      nx = ny ∧ nx % 2 = 1 := by
  have key : ((((ny / 2 : Nat) : ℝ), ((nx / 2 : Nat) : ℝ)) = middle nx ny) ↔ nx = ny ∧ nx % 2 = 1 := by
    simp only [middle, Prod.mk.injEq]
    constructor
    · rintro ⟨h1, h2⟩
      have a1 : (2 : ℝ) * ((ny / 2 : Nat) : ℝ) + 1 = nx := by linarith
      have a2 : (2 : ℝ) * ((nx / 2 : Nat) : ℝ) + 1 = ny := by linarith
      have b1 : 2 * (ny / 2) + 1 = nx := by exact_mod_cast a1
      have b2 : 2 * (nx / 2) + 1 = ny := by exact_mod_cast a2
      omega
    · rintro ⟨rfl, h⟩
      have b1 : 2 * (nx / 2) + 1 = nx := by omega
      have a1 : (2 : ℝ) * ((nx / 2 : Nat) : ℝ) + 1 = nx := by exact_mod_cast b1
      exact ⟨by linarith, by linarith⟩
  rw [← key]
  constructor
  · intro h
    exact turned_center ht fun p q => (cpu_point nx ny theta p q).symm.trans (h p q)
  · intro h p q
    rw [cpu_point, h]

/-- **C136** Half a turn maps pixels to pixels on the GPU, for all sizes, -/
theorem gpu_half_turn (nx ny : Nat) (p : ℝ × ℝ) :
    (gpuMatrixInt nx ny Real.pi).map p = (nx - 1 - p.1, ny - 1 - p.2) := by
  rw [(gpu_middle nx ny Real.pi p _).2]
  simp only [TurnedBy, Real.cos_pi, Real.sin_pi, middle]
  constructor <;> ring

/-- **C136 (refutation)** but for even sizes the CPU version moves row 0 and column 0 out of the grid. -/
theorem cpu_half_turn_loses (n : Nat) (h : n % 2 = 0) (x y : ℝ) :
    (cpuMatrix n n Real.pi).map (x, y) = (n - x, n - y) := by
  rw [cpu_point]
  have b1 : 2 * (n / 2) = n := by omega
  have a1 : (2 : ℝ) * ((n / 2 : Nat) : ℝ) = n := by exact_mod_cast b1
  simp only [TurnedBy, Real.cos_pi, Real.sin_pi]
  constructor <;> linarith

/-- **C136** The quarter turns of the model of the CPU algorithms (C83) are those of this matrix. -/
theorem turnSrc_matrix (n : Nat) (a b : ℤ) (theta : ℝ) (ha : Real.cos theta = a) (hb : Real.sin theta = b)
    (j k : Nat) (hj : j < n * n) :
    turnSrc n a b j = some k ↔
      k < n * n ∧ (cpuMatrix n n theta).src (((j % n : Nat) : ℝ), ((j / n : Nat) : ℝ)) =
        (((k % n : Nat) : ℝ), ((k / n : Nat) : ℝ)) := by
  have hn : 0 < n := by
    rcases Nat.eq_zero_or_pos n with rfl | h
    · simp at hj
    · exact h
  have hu : (cpuMatrix n n theta).src (((j % n : Nat) : ℝ), ((j / n : Nat) : ℝ)) =
      (((((n / 2 : Nat) : ℤ) + a * (((j % n : Nat) : ℤ) - ((n / 2 : Nat) : ℤ)) -
          b * (((j / n : Nat) : ℤ) - ((n / 2 : Nat) : ℤ)) : ℤ) : ℝ),
        ((((n / 2 : Nat) : ℤ) + b * (((j % n : Nat) : ℤ) - ((n / 2 : Nat) : ℤ)) +
          a * (((j / n : Nat) : ℤ) - ((n / 2 : Nat) : ℤ)) : ℤ) : ℝ)) := by
    rw [cpuMatrix, rot_src, rot_turns, deg_rad, cpuCenter_eq, Int.cast_natCast]
    have hc := Real.cos_sq_add_sin_sq theta
    unfold TurnedBy
    rw [ha, hb] at *
    simp only [Int.cast_add, Int.cast_sub, Int.cast_mul, Int.cast_natCast]
    constructor
    · linear_combination (-((j % n : Nat) : ℝ) + ((n / 2 : Nat) : ℝ)) * hc
    · linear_combination (-((j / n : Nat) : ℝ) + ((n / 2 : Nat) : ℝ)) * hc
  rw [hu]
  simp only [turnSrc]
  generalize ((n / 2 : Nat) : ℤ) + a * (((j % n : Nat) : ℤ) - ((n / 2 : Nat) : ℤ)) -
          b * (((j / n : Nat) : ℤ) - ((n / 2 : Nat) : ℤ)) = X
  generalize ((n / 2 : Nat) : ℤ) + b * (((j % n : Nat) : ℤ) - ((n / 2 : Nat) : ℤ)) +
          a * (((j / n : Nat) : ℤ) - ((n / 2 : Nat) : ℤ)) = Y
  have hpair : ((((X : ℤ) : ℝ), ((Y : ℤ) : ℝ)) = (((k % n : Nat) : ℝ), ((k / n : Nat) : ℝ))) ↔
      X = ((k % n : Nat) : ℤ) ∧ Y = ((k / n : Nat) : ℤ) := by
    rw [Prod.mk.injEq, ← Int.cast_natCast (k % n), ← Int.cast_natCast (k / n), Int.cast_inj,
      Int.cast_inj]
  rw [hpair]
  constructor
  · intro h
    split at h
    · rename_i hr
      obtain ⟨h1, h2, h3, h4⟩ := hr
      have hk : Y.toNat * n + X.toNat = k := by simpa using h
      have hx : X.toNat < n := by omega
      have hy : Y.toNat < n := by omega
      refine ⟨?_, ?_, ?_⟩
      · rw [← hk]; nlinarith
      · rw [← hk, Nat.mul_comm, Nat.mul_add_mod, Nat.mod_eq_of_lt hx]; omega
      · rw [← hk, show (Y.toNat * n + X.toNat) / n = Y.toNat by
          rw [Nat.mul_comm, Nat.mul_add_div hn, Nat.div_eq_of_lt hx]; rfl]
        omega
    · simp at h
  · rintro ⟨hk, h1, h2⟩
    have h3 := Nat.mod_lt k hn
    have h4 : k / n < n := Nat.div_lt_of_lt_mul hk
    subst h1 h2
    rw [if_pos ⟨by positivity, by exact_mod_cast h3, by positivity, by exact_mod_cast h4⟩]
    simp only [Int.toNat_natCast, Option.some.injEq]
    rw [Nat.mul_comm]; exact Nat.div_add_mod k n

/-- Hypotheses met: half a turn of a grid of 3 by 3 pixels. -/
example (p q : ℝ × ℝ) :
    (cpuMatrix 3 3 Real.pi).map p = q ↔ TurnedBy (middle 3 3) Real.pi p q :=
  (cpu_middle_iff_partial 3 3 Real.pi (by rw [Real.cos_pi]; norm_num)).2 ⟨rfl, rfl⟩ p q

/-- A quarter turn of a grid of 3 by 3 pixels about its middle: pixel (0, 0) comes from (0, 2). -/
example : turnSrc 3 0 (-1) 0 = some 6 := by decide

/-- The same for 4 by 4 pixels: pixel (0, 0) has no source. -/
example : turnSrc 4 0 (-1) 0 = none := by decide

end Tomopy.Accel
