import Verif.Accel.Model
import Mathlib.Analysis.SpecialFunctions.Trigonometric.Basic
import Mathlib.Algebra.Order.Floor.Ring

/-! Model of the rotation matrices of the accelerated reconstructions: `opencv_affine_transform`
(source/libtomo/accel/utils.hh) and `cuda_rotate_kernel` (source/libtomo/accel/gpu/utils.cu).
Arithmetic is exact (the angles are floats, the matrices doubles in the source). -/

set_option linter.unusedSectionVars false

namespace Tomopy.Accel

noncomputable section

/-- The array `double m[2][3]` of gpu/utils.cu:213, the matrix `rot` of utils.hh:181. -/
structure Affine where
  m00 : ℝ
  m01 : ℝ
  m02 : ℝ
  m10 : ℝ
  m11 : ℝ
  m12 : ℝ

/-- Where NPP (gpu/utils.cu:242) and `cv::warpAffine` (utils.hh:182) move the source point `p`. -/
def Affine.map (M : Affine) (p : ℝ × ℝ) : ℝ × ℝ :=
  (M.m00 * p.1 + M.m01 * p.2 + M.m02, M.m10 * p.1 + M.m11 * p.2 + M.m12)

/-- Source point read by `cv::warpAffine` (utils.hh:182) for the destination point `p`: the matrix is
inverted first; a singular one gives zeros. -/
def Affine.src (M : Affine) (p : ℝ × ℝ) : ℝ × ℝ :=
  let D := M.m00 * M.m11 - M.m01 * M.m10
  let d := if D ≠ 0 then 1 / D else 0
  let a := M.m11 * d
  let b := -(M.m01 * d)
  let c := -(M.m10 * d)
  let e := M.m00 * d
  (a * p.1 + b * p.2 + (-(a * M.m02) - b * M.m12), c * p.1 + e * p.2 + (-(c * M.m02) - e * M.m12))

/-- gpu/utils.cu:213-225, 297-309 `getRotationMatrix2D`, and the function of OpenCV with that name
(utils.hh:181), for an angle in radians. -/
def rotMatrix (cx cy theta scale : ℝ) : Affine :=
  let alpha := scale * Real.cos theta
  let beta := scale * Real.sin theta
  { m00 := alpha
    m01 := beta
    m02 := (1 - alpha) * cx - beta * cy
    m10 := -beta
    m11 := alpha
    m12 := beta * cx + (1 - alpha) * cy }

/-- `fmodf(x, y)` (cxx/sirt.cc:137): the quotient is cut towards zero. -/
def fmod (x y : ℝ) : ℝ :=
  x - y * (if 0 ≤ x / y then (⌊x / y⌋ : ℝ) else (⌈x / y⌉ : ℝ))

/-- cxx/sirt.cc:137, cxx/mlem.cc:136, gpu/sirt.cu:115, gpu/mlem.cu:119: `theta_p`. -/
def thetaP (theta : ℝ) : ℝ := fmod (theta + Real.pi / 2) (2 * Real.pi)

/-- Multiplication by the constant `degrees` (utils.hh:196, gpu/sirt.cu:116, gpu/mlem.cu:120). -/
def toDeg (theta : ℝ) : ℝ := theta * (180 / Real.pi)

/-- What OpenCV (utils.hh:181) and NPP (gpu/utils.cu:327) do with an angle in degrees. -/
def ofDeg (a : ℝ) : ℝ := a * (Real.pi / 180)

/-- One coordinate of `cv::Point(cx, cy)`, utils.hh:178-180: the double is cut to an integer. -/
def cpuCenter (n : Nat) : ℤ := ⌊(1 / 2 : ℚ) * n + if n % 2 = 0 then 1 / 2 else 0⌋

/-- gpu/utils.cu:216-217, 300-301. -/
def gpuCenter (n : Nat) : ℝ := (1 / 2) * n - 1 / 2

/-- utils.hh:173-184, called as in utils.hh:196 with scale 1: rows of the image are `ny` long. -/
def cpuMatrix (nx ny : Nat) (theta : ℝ) : Affine :=
  rotMatrix (cpuCenter ny) (cpuCenter nx) (ofDeg (toDeg theta)) 1

/-- gpu/utils.cu:181-255, the version for `int32_t` images. -/
def gpuMatrixInt (nx ny : Nat) (theta : ℝ) : Affine :=
  rotMatrix (gpuCenter nx) (gpuCenter ny) theta 1

/-- gpu/utils.cu:263-345, the version for `float` images: `nppiRotate_32f_C1R` turns about the point
zero by an angle in degrees and then shifts; the shifts are taken from the matrix (line 328). -/
def gpuMatrixFloat (nx ny : Nat) (thetaRad thetaDeg : ℝ) : Affine :=
  let rot := rotMatrix (gpuCenter nx) (gpuCenter ny) thetaRad 1
  { m00 := Real.cos (ofDeg thetaDeg)
    m01 := Real.sin (ofDeg thetaDeg)
    m02 := rot.m02
    m10 := -Real.sin (ofDeg thetaDeg)
    m11 := Real.cos (ofDeg thetaDeg)
    m12 := rot.m12 }

end

end Tomopy.Accel
