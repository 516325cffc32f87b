import Verif.Center.Model
import Mathlib.Algebra.Order.Field.Basic
import Mathlib.Algebra.Order.Floor.Ring

/-! Model of the slit functions of source/tomopy/prep/alignment.py:
`find_slits_corners_aps_1id`, `calc_slit_box_aps_1id`, `remove_slits_aps_1id`.

Simplifications: exact arithmetic.  The image is the one after the logarithm and the
two-dimensional median filter (lines 582-584); the standard deviation `std` and the one-dimensional
median filter `med` enter as functions, the latter of the same length.  The curve fit of the method
`quadrant+` is a function of the window it is given. -/

namespace Tomopy.Align

variable {K : Type} [Field K] [LinearOrder K]

/-- An image of `rows` by `cols` pixels (alignment.py:585). -/
structure Image (K : Type) where
  rows : Nat
  cols : Nat
  px : Nat → Nat → K

/-- A part of an image, `img[r0:r1, c0:c1]` (alignment.py:619-628). -/
structure Region where
  r0 : Nat
  r1 : Nat
  c0 : Nat
  c1 : Nat
  deriving DecidableEq

/-- `np.gradient` of a one-dimensional array (alignment.py:596-599, 642-650, 669): it raises with fewer
than two elements. -/
def gradient (l : List K) : Except PyErr (List K) :=
  if l.length < 2 then .error .value
  else .ok ((List.range l.length).map fun i =>
    if i = 0 then l.getD 1 0 - l.getD 0 0
    else if i = l.length - 1 then l.getD i 0 - l.getD (i - 1) 0
    else (l.getD (i + 1) 0 - l.getD (i - 1) 0) / 2)

/-- `np.std(img, axis=0)` of a region: one value for every column (alignment.py:590, 642). -/
def colStd (std : List K → K) (im : Image K) (q : Region) : List K :=
  (List.range (q.c1 - q.c0)).map fun c =>
    std ((List.range (q.r1 - q.r0)).map fun r => im.px (q.r0 + r) (q.c0 + c))

/-- `np.std(img, axis=1)` of a region: one value for every row (alignment.py:591, 646-648). -/
def rowStd (std : List K → K) (im : Image K) (q : Region) : List K :=
  (List.range (q.r1 - q.r0)).map fun r =>
    std ((List.range (q.c1 - q.c0)).map fun c => im.px (q.r0 + r) (q.c0 + c))

/-- `np.argmax` (`true`) or `np.argmin` (`false`), first position (alignment.py:596-599, 619-628). -/
def argBest (hi : Bool) (l : List K) : Except PyErr Nat :=
  Center.argmin (if hi then l.map fun x => -x else l)

/-- `func(np.gradient(medfilt(std)))` (alignment.py:596-599, 642-650). -/
def edge (med : List K → List K) (hi : Bool) (l : List K) : Except PyErr Nat := do
  argBest hi (← gradient (med l))

/-- The method `simple` (alignment.py:588-605). -/
def cornersSimple (std : List K → K) (med : List K → List K) (im : Image K) :
    Except PyErr (List (Nat × Nat)) := do
  let q : Region := ⟨0, im.rows, 0, im.cols⟩
  let left ← edge med true (colStd std im q)
  let right ← edge med false (colStd std im q)
  let top ← edge med true (rowStd std im q)
  let bottom ← edge med false (rowStd std im q)
  return [(left, top), (left, bottom), (right, bottom), (right, top)]

/-- A quadrant: the part of the image, the two functions (`true` for `argmax`) and the origin
`(x, y)` (alignment.py:619-636). -/
structure Quadrant where
  reg : Region
  colMax : Bool
  rowMax : Bool
  org : Nat × Nat
  deriving DecidableEq

/-- alignment.py:617-636 with `cnt = [cols/2, rows/2]`; slices beyond the image are clipped. -/
def quadrants (rows cols : Nat) : List Quadrant :=
  let c0 := cols / 2
  let c1 := rows / 2
  [⟨⟨0, c1, 0, c0⟩, true, true, (0, 0)⟩,
   ⟨⟨c1, rows, 0, c0⟩, true, false, (0, c1)⟩,
   ⟨⟨c1, rows, c0, cols⟩, false, false, (c0, c1)⟩,
   ⟨⟨0, min c0 rows, min c1 cols, cols⟩, false, true, (c1, 0)⟩]

/-- One corner of the method `quadrant` (alignment.py:641-653). -/
def cornerOf (std : List K → K) (med : List K → List K) (im : Image K) (q : Quadrant) :
    Except PyErr (Nat × Nat) := do
  let x ← edge med q.colMax (colStd std im q.reg)
  let y ← edge med q.rowMax (rowStd std im q.reg)
  return (x + q.org.1, y + q.org.2)

/-- The method `quadrant` (alignment.py:639-653). -/
def cornersQuadrant (std : List K → K) (med : List K → List K) (im : Image K) :
    Except PyErr (List (Nat × Nat)) :=
  (quadrants im.rows im.cols).mapM (cornerOf std med im)

/-- `l[i]` of numpy with a negative index counted from the end (alignment.py:669, 688). -/
def pyGet (l : List K) (i : Int) : Except PyErr K :=
  if 0 ≤ i then (match l[i.toNat]? with | some v => .ok v | none => .error .index)
  else if i + l.length < 0 then .error .index
  else (match l[(i + l.length).toNat]? with | some v => .ok v | none => .error .index)

/-- The window of the method `quadrant+` (alignment.py:660-669, 680-688): the gradient of the
unfiltered deviations at the positions `guess - 10, …, guess + 10`. -/
def peakWindow (med : List K → List K) (hi : Bool) (l : List K) :
    Except PyErr (List (Int × K)) := do
  let g ← edge med hi l
  let grad ← gradient l
  (List.range 21).mapM fun k : Nat => do
    let v ← pyGet grad ((g : Int) - 10 + (k : Int))
    return ((g : Int) - 10 + (k : Int), v)

/-- `calc_slit_box_aps_1id` (alignment.py:723-732): `(xl, xu, yl, yu)` from the corners `(x, y)`;
`min` and `max` raise on an empty array. -/
def slitBox [FloorRing K] (cs : List (K × K)) (inclip : Int × Int × Int × Int) :
    Except PyErr (Int × Int × Int × Int) :=
  match cs with
  | [] => .error .value
  | c :: cs =>
    let lo (f : K × K → K) := cs.foldl (fun m d => min m (f d)) (f c)
    let hi (f : K × K → K) := cs.foldl (fun m d => max m (f d)) (f c)
    .ok (⌊lo Prod.fst⌋ + inclip.1, ⌈hi Prod.fst⌉ - inclip.2.1,
      ⌊lo Prod.snd⌋ + inclip.2.2.1, ⌈hi Prod.snd⌉ - inclip.2.2.2)

/-- `remove_slits_aps_1id` (alignment.py:753-754). -/
def removeSlits [FloorRing K] {α : Type} (stack : List (List (List α))) (cs : List (K × K))
    (inclip : Int × Int × Int × Int) : Except PyErr (List (List (List α))) := do
  let (xl, xu, yl, yu) ← slitBox cs inclip
  return stack.map fun im => (pySlice im (some yl) (some yu)).map fun row =>
    pySlice row (some xl) (some xu)

end Tomopy.Align
