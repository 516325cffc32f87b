import Verif.Base
import Mathlib.Algebra.Order.Field.Basic
import Mathlib.Data.List.Sort

/-! Model of source/tomopy/misc/npmath.py `discrete_cdf`.

Simplifications: exact arithmetic in an ordered field without NaN; a division by zero (NaN or
infinity in numpy) is `none`. -/

namespace Tomopy.Cdf

variable {K : Type} [Field K] [LinearOrder K]

/-- `np.sort(data)` (npmath.py:105). -/
def sorted (data : List K) : List K := data.insertionSort (· ≤ ·)

/-- `int(np.ceil(n / steps))` for `steps ≠ 0` (npmath.py:114). -/
def stride (n : Nat) (steps : Int) : Int := -((-(n : Int)).fdiv steps)

/-- Elements 0, `s`, `2 s`, … of a list: `x[np.arange(0, len(x), s)]` for `s > 0`
(npmath.py:114). -/
def every (x : List K) (s : Nat) : List K :=
  (List.range ((x.length + s - 1) / s)).map fun i => x.getD (i * s) 0

/-- npmath.py:113-114: subsampling. -/
def subsample (x : List K) : Option Int → Except PyErr (List K)
  | none => .ok x
  | some steps =>
    if (x.length : Int) > steps then
      if steps = 0 then .error .zeroDivision
      else if stride x.length steps = 0 then .error .zeroDivision
      else if stride x.length steps < 0 then .ok []
      else .ok (every x (stride x.length steps).toNat)
    else .ok x

/-- `np.tile(x, (2, 1)).flatten(order='F')`: every element twice (npmath.py:117). -/
def twice (x : List K) : List K := x.flatMap fun a => [a, a]

/-- npmath.py:119: `0, 1, 1, 2, 2, 3, …` divided by the last index of `x`. -/
def levels (n : Nat) : List (Option K) :=
  (List.range n).flatMap fun i => [i, i + 1].map fun j : Nat =>
    if n - 1 = 0 then none else some ((j : K) / ((n - 1 : Nat) : K))

/-- npmath.py:82-121 `discrete_cdf`. -/
def discreteCdf (data : List K) (steps : Option Int) : Except PyErr (List K × List (Option K)) := do
  let x := sorted data
  if x.length = 0 then return ([], [])
  let x ← subsample x steps
  if x.length = 0 then .error .index
  else return (twice x, levels x.length)

end Tomopy.Cdf
