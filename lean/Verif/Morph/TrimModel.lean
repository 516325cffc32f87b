import Verif.Base
import Mathlib.Analysis.SpecialFunctions.Complex.Arg

/-! Model of `trim_sinogram` in source/tomopy/misc/morph.py.

Simplifications: exact real arithmetic; numpy 1.12 or later (a float in a slice or a shape raises
`TypeError`). -/
set_option linter.unusedSectionVars false

namespace Tomopy.Trim

variable {K : Type}

/-- A Python number: an `int` or a float (morph.py:255, 291-302). -/
inductive Num where
  | int (z : Int)
  | flt (r : ℝ)

/-- Its value (morph.py:284-292). -/
noncomputable def Num.val : Num → ℝ
  | .int z => z
  | .flt r => r

/-- morph.py:295-302: an index outside the frame is replaced by the Python integers 0 or `dz`;
`np.ceil` and `np.floor` return floats, so an index inside stays a float. -/
noncomputable def clamp (dz : Nat) (i : Int) : Num :=
  if i < 0 then .int 0 else if (dz : Int) < i then .int dz else .flt i

/-- morph.py:282-285, 291: start of the circle's shadow before rounding, in projection `m` of
`dx`; `np.arctan2(x, y)` is the argument of `y + i x`. -/
noncomputable def start (dx : Nat) (center x y diameter : ℝ) (m : Nat) : ℝ :=
  let rad := Real.sqrt (x * x + y * y)
  let alpha := Complex.arg ⟨y, x⟩
  let l1 := center - diameter / 2
  let l2 := center - diameter / 2 + rad
  let delphi := Real.pi / dx
  Real.cos (alpha - m * delphi) * (l2 - l1) + l1

/-- morph.py:290-304, one projection (all its rows are treated alike); `d` columns of the result,
filled with ones, `s` the value of `start`. -/
noncomputable def trimProj [One K] (dz d : Nat) (s : ℝ) (rows : List (List K)) :
    Except PyErr (List (List K)) :=
  match clamp dz ⌈s⌉, clamp dz ⌊s + d⌋ with
  | .int a, .int b => rows.mapM fun row =>
      pySetSlice (List.replicate d 1) (some 0) (some (b - a)) (pySlice row (some a) (some b))
  | _, _ => .error .type

/-- morph.py:255-305 `trim_sinogram`; `data` is the list of projections, `dz` the length of a
row. -/
noncomputable def trimSinogram [One K] (data : List (List (List K))) (dz : Nat) (center x y : ℝ)
    (diameter : Num) : Except PyErr (List (List (List K))) :=
  match diameter with
  | .flt _ => .error .type
  | .int d =>
    if d < 0 then .error .value
    else if data.length = 0 then .error .zeroDivision
    else (data.zipIdx).mapM fun p => trimProj dz d.toNat (start data.length center x y d p.2) p.1

end Tomopy.Trim
