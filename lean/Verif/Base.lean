/-! Shared vocabulary of the model. -/
namespace Tomopy

/-- Python exceptions that the modelled functions of /repo/source/tomopy can raise
(exceptions are values of the model; message texts are dropped). -/
inductive PyErr where
  | zeroDivision | value | index | type | attribute | runtime | name | key
  deriving DecidableEq, Repr

/-- Bound of a Python slice of a sequence of length `n`: negative values count from the end,
everything is clipped (slices such as prep/normalize.py:329, misc/morph.py:345-352). -/
def pyBound (n : Nat) (a : Int) : Int := if a < 0 then max 0 (a + n) else min a n

/-- Bound of a slice as an index; `d` is used when the bound is omitted
(misc/morph.py:345-352). -/
def pyIdx (n d : Nat) : Option Int → Nat
  | none => d
  | some a => (pyBound n a).toNat

/-- `l[start:stop]` (misc/morph.py:345-352). -/
def pySlice {α : Type} (l : List α) (start stop : Option Int) : List α :=
  let lo := pyIdx l.length 0 start
  let hi := pyIdx l.length l.length stop
  (l.drop lo).take (hi - lo)

/-- `l[start:stop] = src` with numpy broadcasting of a source of length one; a length mismatch
is a `ValueError` (misc/morph.py:345-352). -/
def pySetSlice {α : Type} (l : List α) (start stop : Option Int) (src : List α) :
    Except PyErr (List α) :=
  let lo := pyIdx l.length 0 start
  let hi := pyIdx l.length l.length stop
  if src.length = hi - lo then .ok (l.take lo ++ src ++ l.drop (max lo hi))
  else match src with
    | [v] => .ok (l.take lo ++ List.replicate (hi - lo) v ++ l.drop (max lo hi))
    | _ => .error .value

end Tomopy
