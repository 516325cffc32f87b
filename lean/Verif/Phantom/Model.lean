import Verif.Base
import Mathlib.Analysis.SpecialFunctions.Trigonometric.Basic

/-! Model of the three-dimensional phantoms of source/tomopy/misc/phantom.py.

Simplifications: exact real arithmetic with exact sines and cosines; floating-point element types
(an integer `dtype` would raise when a fraction is added). -/

namespace Tomopy.Phantom

noncomputable section

/-- A point (phantom.py:393-400). -/
@[ext] structure V3 where
  /-- first coordinate -/
  x : ℝ
  /-- second coordinate -/
  y : ℝ
  /-- third coordinate -/
  z : ℝ

/-- Parameters of an ellipsoid (phantom.py:443-447). -/
structure Ell where
  /-- value added -/
  A : ℝ
  /-- half axes -/
  a : ℝ
  /-- second half axis -/
  b : ℝ
  /-- third half axis -/
  c : ℝ
  /-- offset -/
  x0 : ℝ
  /-- second offset -/
  y0 : ℝ
  /-- third offset -/
  z0 : ℝ
  /-- Euler angles in degrees -/
  phi : ℝ
  /-- second angle -/
  theta : ℝ
  /-- third angle -/
  psi : ℝ

/-- `np.radians` (phantom.py:376-381). -/
def radians (d : ℝ) : ℝ := d * Real.pi / 180

/-- `np.dot` of the matrix of phantom.py:372-391 `_rotation_matrix` with a point
(phantom.py:409 `np.tensordot`). -/
def rotate (e : Ell) (p : V3) : V3 :=
  let cphi := Real.cos (radians e.phi)
  let sphi := Real.sin (radians e.phi)
  let ctheta := Real.cos (radians e.theta)
  let stheta := Real.sin (radians e.theta)
  let cpsi := Real.cos (radians e.psi)
  let spsi := Real.sin (radians e.psi)
  ⟨(cpsi * cphi - ctheta * sphi * spsi) * p.x + (cpsi * sphi + ctheta * cphi * spsi) * p.y
      + spsi * stheta * p.z,
   (-spsi * cphi - ctheta * sphi * cpsi) * p.x + (-spsi * sphi + ctheta * cphi * cpsi) * p.y
      + cpsi * stheta * p.z,
   stheta * sphi * p.x + -stheta * cphi * p.y + ctheta * p.z⟩

/-- Element `i` of `np.mgrid[-1:1:nj]` (phantom.py:393-399 `_define_coords`). -/
def coord (n i : Nat) : ℝ := if n = 1 then -1 else (i : ℝ) * (2 / ((n : ℝ) - 1)) + -1

/-- Coordinates of a voxel (phantom.py:398). -/
def voxel (nx ny nz i j k : Nat) : V3 := ⟨coord nx i, coord ny j, coord nz k⟩

/-- phantom.py:404-416 `_transform`; `none` when an axis is zero (the numpy results are infinite
or not a number, and compare as false with 1). -/
def transform (e : Ell) (p : V3) : Option V3 :=
  let q := rotate e p
  if e.a = 0 ∨ e.b = 0 ∨ e.c = 0 then none
  else some ⟨(q.x - e.x0) / e.a, (q.y - e.y0) / e.b, (q.z - e.z0) / e.c⟩

open Classical in
/-- phantom.py:359-365: `ellip_mask`. -/
def mask (e : Ell) (p : V3) : Bool :=
  match transform e p with
  | none => false
  | some q => decide (q.x ^ 2 + q.y ^ 2 + q.z ^ 2 ≤ 1)

/-- phantom.py:336-369 `_ellipsoid` with `out` and `coords` given. -/
def ellipsoid (e : Ell) (nx ny nz : Nat) (out : Nat → Nat → Nat → ℝ) : Nat → Nat → Nat → ℝ :=
  fun i j k => if mask e (voxel nx ny nz i j k) then out i j k + e.A else out i j k

/-- phantom.py:305-333 `phantom`. -/
def phantom (nx ny nz : Nat) (params : List Ell) : Nat → Nat → Nat → ℝ :=
  params.foldl (fun obj e => ellipsoid e nx ny nz obj) fun _ _ _ => 0

/-- phantom.py:419-434 `_get_shepp_array`, phantom.py:437-455 `_array_to_params`. -/
def shepp : List Ell :=
  [⟨1, 69 / 100, 92 / 100, 81 / 100, 0, 0, 0, 90, 90, 90⟩,
   ⟨-8 / 10, 6624 / 10000, 874 / 1000, 78 / 100, 0, -184 / 10000, 0, 90, 90, 90⟩,
   ⟨-2 / 10, 11 / 100, 31 / 100, 22 / 100, 22 / 100, 0, 0, -108, 90, 100⟩,
   ⟨-2 / 10, 16 / 100, 41 / 100, 28 / 100, -22 / 100, 0, 0, 108, 90, 100⟩,
   ⟨1 / 10, 21 / 100, 25 / 100, 41 / 100, 0, 35 / 100, -15 / 100, 90, 90, 90⟩,
   ⟨1 / 10, 46 / 1000, 46 / 1000, 5 / 100, 0, 1 / 10, 25 / 100, 90, 90, 90⟩,
   ⟨1 / 10, 46 / 1000, 46 / 1000, 5 / 100, 0, -1 / 10, 25 / 100, 90, 90, 90⟩,
   ⟨1 / 10, 46 / 1000, 23 / 1000, 5 / 100, -8 / 100, -605 / 1000, 0, 90, 90, 90⟩,
   ⟨1 / 10, 23 / 1000, 23 / 1000, 2 / 100, 0, -606 / 1000, 0, 90, 90, 90⟩,
   ⟨1 / 10, 23 / 1000, 46 / 1000, 2 / 100, 6 / 100, -605 / 1000, 0, 90, 90, 90⟩]

/-- phantom.py:284-302 `shepp3d` with the size given as a tuple. -/
def shepp3d (nx ny nz : Nat) : Nat → Nat → Nat → ℝ := fun i j k => max (phantom nx ny nz shepp i j k) 0

end

end Tomopy.Phantom
