import Verif.Normalize.Model
import Mathlib.Analysis.SpecialFunctions.Log.Basic

/-! Model of `minus_log` (source/tomopy/prep/normalize.py:72-95) over the real numbers. -/
namespace Tomopy.Normalize

/-- Result of a floating point logarithm (normalize.py:94). -/
inductive LogVal where
  | fin (r : ℝ)
  | inf
  | nan

/-- `-log(x)` of numexpr (normalize.py:94): infinite for 0, NaN below. -/
noncomputable def minusLogPix (x : ℝ) : LogVal :=
  if 0 < x then .fin (-Real.log x) else if x = 0 then .inf else .nan

/-- normalize.py:72-95 `minus_log`: every element (values; `out` and `ncore` only decide where the result
is stored and how many threads numexpr uses). -/
noncomputable def minusLog (arr : Nat → Img ℝ) : Nat → Nat → Nat → LogVal :=
  fun t y x => minusLogPix (arr t y x)

end Tomopy.Normalize
