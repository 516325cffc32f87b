import Mathlib.Algebra.Order.Floor.Ring
import Mathlib.Algebra.Order.Field.Basic
import Mathlib.Algebra.Order.Field.Rat
import Mathlib.Data.Rat.Floor
import Mathlib.Tactic.Ring
import Mathlib.Tactic.Linarith

/-!
# The ray tracer of libtomo (`source/libtomo/recon/utils.c`)

`float` values are elements of an ordered field `K` (exact arithmetic, no rounding).
A non-finite intermediate value (division by zero in `calc_coords`) is `none`; every
comparison with it is false, as for IEEE infinities against a finite interval and NaN.
Buffers are lists that grow by `push`, which fails (`none`) when the write would be
outside the allocation, so a result `some _` means that no write was out of bounds.
-/

set_option linter.unusedSectionVars false

namespace Tomopy.Ray

variable {K : Type*} [Field K] [LinearOrder K] [IsStrictOrderedRing K] [FloorRing K]

/-- `gridx[i] = -ry * 0.5f + i` and `gridy[i] = -rz * 0.5f + i`
(`source/libtomo/recon/utils.c:70-78`); `r` is the number of pixels along that axis. -/
def grid (r i : Nat) : K := -(r : K) * (1 / 2) + i

/-- `*mov` of `preprocessing` (`source/libtomo/recon/utils.c:80-85`). -/
def mov (num_pixels : Nat) (center : K) : K :=
  (if ((num_pixels : K) - 1) * (1 / 2) - center
        - ⌊((num_pixels : K) - 1) * (1 / 2) - center⌋ < 1 / 100
    then ((num_pixels : K) - 1) * (1 / 2) - center + 1 / 100
    else ((num_pixels : K) - 1) * (1 / 2) - center) + 1 / 2

/-- `yi = 0.5f * (1 - dx) + d + mov` (`source/libtomo/recon/art.c:105`, `fbp.c:99`,
`osem.c:128`, `bart.c:127`, `project.c:97`). -/
def rayY (dx d : Nat) (mv : K) : K := (1 / 2) * (1 - (dx : K)) + d + mv

/-- `xi = -ngridx - ngridy` (`source/libtomo/recon/art.c:104`, `project.c:96`). -/
def rayX (rx rz : Nat) : K := -(rx : K) - rz

/-- C division of finite floats: `none` stands for an infinite or NaN result
(`source/libtomo/recon/utils.c:125-126`). -/
def divF (a b : K) : Option K := if b = 0 then none else some (a / b)

/-- `srcx` (`source/libtomo/recon/utils.c:121`). -/
def srcx (xi yi sn cs : K) : K := xi * cs - yi * sn
/-- `srcy` (`source/libtomo/recon/utils.c:122`). -/
def srcy (xi yi sn cs : K) : K := xi * sn + yi * cs
/-- `detx` (`source/libtomo/recon/utils.c:123`). -/
def detx (xi yi sn cs : K) : K := -xi * cs - yi * sn
/-- `dety` (`source/libtomo/recon/utils.c:124`). -/
def dety (xi yi sn cs : K) : K := -xi * sn + yi * cs

/-- `slope` (`source/libtomo/recon/utils.c:125`). -/
def slope (xi yi sn cs : K) : Option K :=
  divF (srcy xi yi sn cs - dety xi yi sn cs) (srcx xi yi sn cs - detx xi yi sn cs)

/-- `islope` (`source/libtomo/recon/utils.c:126`). -/
def islope (xi yi sn cs : K) : Option K :=
  divF (srcx xi yi sn cs - detx xi yi sn cs) (srcy xi yi sn cs - dety xi yi sn cs)

/-- `coordx[n] = islope * (gridy[n] - srcy) + srcx` (`source/libtomo/recon/utils.c:129-132`). -/
def coordx (rz : Nat) (xi yi sn cs : K) (n : Nat) : Option K :=
  (islope xi yi sn cs).map fun t => t * (grid rz n - srcy xi yi sn cs) + srcx xi yi sn cs

/-- `coordy[n] = slope * (gridx[n] - srcx) + srcy` (`source/libtomo/recon/utils.c:134-137`). -/
def coordy (rx : Nat) (xi yi sn cs : K) (n : Nat) : Option K :=
  (slope xi yi sn cs).map fun t => t * (grid rx n - srcx xi yi sn cs) + srcy xi yi sn cs

/-- One store `buf[size] = x; ++size` into an allocation of `cap` elements
(`source/libtomo/recon/utils.c:156-158`, `169-171`); `none` is an out-of-bounds write. -/
def push {α : Type*} (cap : Nat) (buf : List α) (x : α) : Option (List α) :=
  if buf.length < cap then some (buf ++ [x]) else none

/-- The interval test of `trim_coords` (`source/libtomo/recon/utils.c:149-150,154`,
`162-163,167`): `v >= grid[0] + 0.01 && v <= grid[r] - 0.01`, for an axis of `r` pixels. -/
def inside (r : Nat) (v : K) : Bool :=
  decide (grid r 0 + 1 / 100 ≤ v) && decide (v ≤ grid r r - 1 / 100)

/-- The crossing with the `n`-th horizontal grid line, if it is kept
(`source/libtomo/recon/utils.c:154-157`). -/
def aPoint (rx rz : Nat) (cx : Nat → Option K) (n : Nat) : Option (K × K) :=
  match cx n with
  | some x => if inside rx x then some (x, grid rz n) else none
  | none => none

/-- The crossing with the `n`-th vertical grid line, if it is kept
(`source/libtomo/recon/utils.c:167-170`). -/
def bPoint (rx rz : Nat) (cy : Nat → Option K) (n : Nat) : Option (K × K) :=
  match cy n with
  | some y => if inside rz y then some (grid rx n, y) else none
  | none => none

/-- The body of one of the two loops of `trim_coords` (`source/libtomo/recon/utils.c:154-159`,
`167-172`). -/
def trimStep {α : Type*} (cap : Nat) (pt : Nat → Option α) (buf : List α) (k : Nat) :
    Option (List α) :=
  match pt k with
  | some x => push cap buf x
  | none => some buf

/-- One of the two loops of `trim_coords` (`source/libtomo/recon/utils.c:152-160`,
`165-173`): the kept points are appended to a buffer of `cap` elements. -/
def trimLoop {α : Type*} (cap : Nat) (pt : Nat → Option α) (n : Nat) : Option (List α) :=
  (List.range n).foldlM (trimStep cap pt) []

/-- `sort_intersections`, the merge loop (`source/libtomo/recon/utils.c:186-216`, `222-252`):
`ax[..] < bx[j]` takes the next `a`, otherwise the next `b`; the rest is copied.  The indices
`i`, `j` are represented by the part of the lists that is still to be read. -/
def mergeX : List (K × K) → List (K × K) → List (K × K)
  | [], bs => bs
  | as, [] => as
  | a :: as, b :: bs =>
    if a.1 < b.1 then a :: mergeX as (b :: bs) else b :: mergeX (a :: as) bs
termination_by as bs => as.length + bs.length

/-- `sort_intersections` (`source/libtomo/recon/utils.c:178-255`): with
`ind_condition == 0` the `a` list is read backwards. -/
def sortIntersections (quadrant : Int) (as bs : List (K × K)) : List (K × K) :=
  if quadrant = 0 then mergeX as.reverse bs else mergeX as bs

/-- `(int) x` for a float in the range of `int` (`source/libtomo/recon/utils.c:308,316`). -/
def cTrunc (x : K) : Int := if 0 ≤ x then ⌊x⌋ else ⌈x⌉

/-- `_indx[n]` / `_indy[n]` from the two end points
(`source/libtomo/recon/utils.c:306-309`, `314-317`, also `346-353`). -/
def pixelIndex (r : Nat) (v0 v1 : K) : Int :=
  cTrunc ((1 / 2) * (v1 + v0) + (1 / 2) * (r : K))
    - (if (cTrunc ((1 / 2) * (v1 + v0) + (1 / 2) * (r : K)) : K)
          > (1 / 2) * (v1 + v0) + (1 / 2) * (r : K) then 1 else 0)

/-- `calc_dist` (`source/libtomo/recon/utils.c:259-327`): pixel index and length of every
segment.  `hyp a b` stands for `sqrtf(a*a + b*b)`. -/
def calcDist (hyp : K → K → K) (rx rz : Nat) : List (K × K) → List (Int × K)
  | [] => []
  | [_] => []
  | P :: Q :: rest =>
    (pixelIndex rz P.2 Q.2 + pixelIndex rx P.1 Q.1 * (rz : Int), hyp (Q.1 - P.1) (Q.2 - P.2))
      :: calcDist hyp rx rz (Q :: rest)

/-- The sizes (in elements) of the buffers of one routine (`source/libtomo/recon/art.c:59-66`,
`project.c:61-68`). -/
structure Caps where
  ab : Nat
  coor : Nat
  seg : Nat

/-- Allocations of `art`, `bart`, `fbp`, `osem`, `ospml_*`, `grad`, `tikh`, `tv`, `vector*`:
`ax ay bx by coorx coory dist indi` all have `ngridx + ngridy` elements
(`source/libtomo/recon/art.c:59-66`, `bart.c:60-67`, `fbp.c:58-65`, `osem.c:61-68`,
`ospml_quad.c:59-66`, `grad.c:59-66`, `vector.c:56-64`). -/
def capsRecon (rx rz : Nat) : Caps := ⟨rx + rz, rx + rz, rx + rz⟩

/-- Allocations of `project`, `project2`, `project3`
(`source/libtomo/recon/project.c:61-68`, `151-160`, `256-265`). -/
def capsProject (rx rz : Nat) : Caps := ⟨rx + rz + 2, rx + rz + 2, rx + rz + 1⟩

/-- The sequence `calc_coords; trim_coords; sort_intersections; calc_dist` executed by every
routine for one ray (`source/libtomo/recon/art.c:104-123`, `project.c:96-114`, `fbp.c:98-117`).
The result is the list of `(indi[n], dist[n])`; `none` is a write outside one of the buffers. -/
def trace (hyp : K → K → K) (caps : Caps) (quadrant : Int) (rx rz : Nat) (yi sn cs : K) :
    Option (List (Int × K)) := do
  let as ← trimLoop caps.ab (aPoint rx rz (coordx rz (rayX rx rz) yi sn cs)) (rz + 1)
  let bs ← trimLoop caps.ab (bPoint rx rz (coordy rx (rayX rx rz) yi sn cs)) (rx + 1)
  if as.length + bs.length ≤ caps.coor ∧ as.length + bs.length - 1 ≤ caps.seg then
    some (calcDist hyp rx rz (sortIntersections quadrant as bs))
  else none

end Tomopy.Ray
