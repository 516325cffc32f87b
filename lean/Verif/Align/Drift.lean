import Verif.Base
import Mathlib.Algebra.Order.Field.Basic
import Mathlib.Algebra.Order.Group.Abs
import Mathlib.Data.List.GetD

/-! Model of the corner search of source/tomopy/prep/alignment.py
`detector_drift_adjust_aps_1id`.

Simplifications: the corners that `find_slits_corners_aps_1id` finds in image `n` with a pair of
kernel sizes are given by a function (the same call gives the same corners, exceptions of that
function are not modelled); exact arithmetic.  The affine transformations that follow the search
are not part of this file. -/

namespace Tomopy.Align

variable {K : Type} [Field K] [LinearOrder K]

/-- The eight numbers of four corners (alignment.py:605). -/
abbrev Corners (K : Type) := Nat → K

/-- `quick_diff(a - b)`: the largest absolute difference (alignment.py:790). -/
def quickDiff (a b : Corners K) : K :=
  (List.range 8).foldl (fun m i => max m |a i - b i|) |a 0 - b 0|

/-- State of the search (alignment.py:805-815). -/
structure Search (K : Type) where
  /-- `proj_cnrs` -/
  cnrs : Nat → Corners K
  /-- `cnrs_found` -/
  found : Nat → Bool

/-- alignment.py:812-814. -/
def kernels (k2 k1 : Nat) : List (Nat × Nat) :=
  (List.range 15).flatMap fun i => (List.range 15).map fun j => (k2 + 2 * i, k1 + 2 * j)

/-- alignment.py:804-811: the first round. -/
def start (detect : Nat → Nat × Nat → Corners K) (ref : Corners K) (k2 k1 : Nat) : Search K where
  cnrs n := detect n (k2, k1)
  found n := decide (quickDiff (detect n (k2, k1)) ref < 15)

/-- `cnrs_found.all()` (alignment.py:817). -/
def allFound (n : Nat) (s : Search K) : Bool := (List.range n).all s.found

/-- alignment.py:818-819 `nlist`. -/
def missing (n : Nat) (s : Search K) : List Nat := (List.range n).filter fun i => !s.found i

/-- alignment.py:833-847 for one image. -/
def judge (ref : Corners K) (s : Search K) (nc : Nat × Corners K) : Search K :=
  if quickDiff nc.2 (s.cnrs nc.1) < 1 / 10 ∧ quickDiff nc.2 ref < 15 then
    { s with found := fun i => if i = nc.1 then true else s.found i }
  else { s with cnrs := fun i => if i = nc.1 then nc.2 else s.cnrs i }

/-- alignment.py:831-847: one round with kernels `ks`. -/
def round (n : Nat) (detect : Nat → Nat × Nat → Corners K) (ref : Corners K) (ks : Nat × Nat)
    (s : Search K) : Search K :=
  ((missing n s).map fun i => (i, detect i ks)).foldl (judge ref) s

/-- alignment.py:824-826: the fallback. -/
def giveUp (n : Nat) (ref : Corners K) (s : Search K) : Search K :=
  { s with cnrs := fun i => if i ∈ missing n s then ref else s.cnrs i }

/-- alignment.py:817-850: the loop, started with `counter`. -/
def search (n : Nat) (detect : Nat → Nat × Nat → Corners K) (ref : Corners K)
    (ks : List (Nat × Nat)) (counter : Nat) (s : Search K) : Except PyErr (Search K) :=
  if allFound n s then .ok s
  else if ks.length < counter then .ok (giveUp n ref s)
  else match ks[counter]? with
    | none => .error .index
    | some k => search n detect ref ks (counter + 1) (round n detect ref k s)
  termination_by ks.length + 1 - counter

/-- alignment.py:804-850: the corners found for `n` images. -/
def driftCorners (n : Nat) (detect : Nat → Nat × Nat → Corners K) (ref : Corners K) (k2 k1 : Nat) :
    Except PyErr (Search K) :=
  search n detect ref (kernels k2 k1) 0 (start detect ref k2 k1)

end Tomopy.Align
