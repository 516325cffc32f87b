import Verif.Base
import Verif.Mproc.Model
import Mathlib.Algebra.Order.Floor.Defs
import Mathlib.Algebra.Order.Field.Basic

/-! Model of source/libtomo/misc/remove_ring.c and of source/tomopy/misc/corr.py:751-849
`remove_ring`.

Simplifications: `float`, `double` and `long double` are one exact ordered field `K`; `int`
does not overflow; `calloc` succeeds for the sizes used; `sin`, `cos`, `atan2`, `sqrtf` enter as
given numbers (`Trig`) about which only their range is assumed; `rwidth` is not negative.  An
access outside an array is `none`. -/
namespace Tomopy.Ring

section
variable {K : Type} [Field K] [LinearOrder K] [IsStrictOrderedRing K] [FloorRing K]

/-- An image as allocated by `calloc(height * width)` with row pointers (remove_ring.c:93-99,
132-138, 542-548) or as a slice of `data` (remove_ring.c:623-627). -/
structure Img (K : Type) where
  h : Nat
  w : Nat
  px : Nat → Nat → K

/-- `image[row][col]`: the row pointer must exist and the address must be inside the block; a
column number beyond the row reaches into the next row (remove_ring.c:112, 288, 292, 307, 412, 430, ...). -/
def Img.rd (img : Img K) (row col : Int) : Option K :=
  if 0 ≤ row ∧ row < img.h ∧ 0 ≤ row * img.w + col ∧ row * img.w + col < img.h * img.w then
    some (img.px ((row * img.w + col).toNat / img.w) ((row * img.w + col).toNat % img.w))
  else none

/-- Fill an image pixel by pixel (loops such as remove_ring.c:100-122, 563-574); fails if some pixel
needs an invalid access. -/
def tabulate (h w : Nat) (f : Nat → Nat → Option K) : Option (Img K) :=
  if ∀ r < h, ∀ c < w, (f r c).isSome then some ⟨h, w, fun r c => (f r c).getD 0⟩ else none

/-! ### Polar coordinates -/

/-- Conversion of a floating point number to `int` (remove_ring.c:60-63). -/
def ctrunc (x : K) : Int := if 0 ≤ x then ⌊x⌋ else ⌈x⌉

/-- remove_ring.c:56-74 `min_distance_to_edge`. -/
def minDistance (cx cy : K) (width height : Nat) : Int :=
  [ctrunc (cy + 1), ctrunc ((width : K) - cx), ctrunc ((height : K) - cy)].foldl
    (fun m x => if m > x then x else m) (ctrunc (cx + 1))

/-- remove_ring.c:76-80 `iroundf`. -/
def iround (x : K) : Int := if x ≠ 0 then ⌊x + 1 / 2⌋ else 0

/-- remove_ring.c:54 `PI`. -/
def PI : K := 314159265359 / 100000000000

/-- remove_ring.c:89 `pol_height` with `ang_scale` 1 (line 613). -/
def polHeight (maxR : Int) : Int := iround (2 * PI * (maxR : K))

/-- Results of the transcendental functions: `cos` and `sin` of the angle of a polar row
(remove_ring.c:104-108), corrected `atan2` and distance from the centre of a pixel
(remove_ring.c:143-148, 152-153). -/
structure Trig (K : Type) where
  cs : Nat → K
  sn : Nat → K
  th : Nat → Nat → K
  dist : Nat → Nat → K

/-- remove_ring.c:113-120. -/
def clampTo (tmax tmin v : K) : K := if v > tmax then tmax else if v < tmin then tmin else v

/-- remove_ring.c:82-125 `polar_transform` with `r_scale` 1 (line 612): column `r ≤ pol_width - 1`,
row `row`.  With a non-positive radius the arrays have no elements and line 95 stores outside. -/
def polarTransform (tg : Trig K) (img : Img K) (cx cy tmax tmin : K) : Option (Img K) :=
  let maxR := minDistance cx cy img.w img.h
  let polH := polHeight (K := K) maxR
  if maxR ≤ 0 ∨ polH ≤ 0 then none
  else tabulate polH.toNat maxR.toNat fun row r =>
    let x := iround ((r : K) * tg.cs row + cx)
    let y := iround ((r : K) * tg.sn row + cy)
    (img.rd y x).map (clampTo tmax tmin)

/-- remove_ring.c:127-165 `inverse_polar_transform` with `r_scale` 1. -/
def inversePolar (tg : Trig K) (pol : Img K) (width height : Nat) : Option (Img K) :=
  tabulate height width fun row col =>
    let prow := iround (tg.th row col * (pol.h : K) / (2 * PI))
    let pcol := iround (tg.dist row col)
    if prow < pol.h ∧ pcol < pol.w then pol.rd prow pcol else some 0

/-! ### Rolling median -/

/-- `median_array` and `position_array` side by side (remove_ring.c:266-267). -/
abbrev Arr (K : Type) := Int → K × Int

/-- remove_ring.c:167-183 `swap_float`, `swap_integer`, always called together. -/
def swapA (a : Arr K) (i j : Int) : Arr K := fun x => if x = i then a j else if x = j then a i else a x

/-- The integers `a, …, b` (loop counters, remove_ring.c:193, 310, 401). -/
def intRange (a b : Int) : List Int := (List.range (b + 1 - a).toNat).map fun n : Nat => a + n

/-- Loop body of remove_ring.c:195-200. -/
def partStep (pv : K) (s : Arr K × Int) (i : Int) : Arr K × Int :=
  if (s.1 i).1 ≤ pv then (swapA s.1 i s.2, s.2 + 1) else s

/-- remove_ring.c:185-205 `partition_2_arrays`. -/
def partition (a : Arr K) (left right piv : Int) : Arr K × Int :=
  let s := (intRange left (right - 1)).foldl (partStep (a piv).1) (swapA a piv right, left)
  (swapA s.1 s.2 right, s.2)

/-- remove_ring.c:207-219 `quick_sort_2_arrays`; the first argument bounds the recursion depth
(`none` if exceeded). -/
def quickSort : Nat → Arr K → Int → Int → Option (Arr K)
  | 0, _, _, _ => none
  | f + 1, a, left, right =>
    if left < right then
      let p := partition a left right (Int.tdiv (left + right) 2)
      match quickSort f p.1 left (p.2 - 1) with
      | none => none
      | some b => quickSort f b (p.2 + 1) right
    else some a

/-- remove_ring.c:221-258 `bubble_2_arrays`; the first argument bounds the recursion depth.  In
the branch `index == 0` element 1 is read, which does not exist if `length` is 1. -/
def bubble : Nat → Arr K → Int → Int → Option (Arr K)
  | 0, _, _, _ => none
  | f + 1, a, idx, len =>
    if idx > 0 ∧ idx < len - 1 then
      if (a idx).1 < (a (idx - 1)).1 then bubble f (swapA a idx (idx - 1)) (idx - 1) len
      else if (a idx).1 > (a (idx + 1)).1 then bubble f (swapA a idx (idx + 1)) (idx + 1) len
      else some a
    else if idx = 0 then
      if idx + 1 < len then
        if (a idx).1 > (a (idx + 1)).1 then bubble f (swapA a idx (idx + 1)) (idx + 1) len
        else some a
      else none
    else if idx = len - 1 then
      if (a idx).1 < (a (idx - 1)).1 then bubble f (swapA a idx (idx - 1)) (idx - 1) len
      else some a
    else some a

/-- remove_ring.c:273-295: value for window position `i` of the first window. -/
def medFirst (img : Img K) (row start k : Nat) (i : Int) : Option K :=
  let c : Int := start + (i - k)
  if c < 0 then
    img.rd (if row < img.h / 2 then (row : Int) + (img.h / 2 : Nat) else row - (img.h / 2 : Nat)) (-c)
  else img.rd row c

/-- remove_ring.c:273-295: the first window, unsorted. -/
def medInit (img : Img K) (row start k : Nat) : Option (Arr K) :=
  if ∀ i < 2 * k + 1, (medFirst img row start k (i : Nat)).isSome then
    some fun i => ((medFirst img row start k i).getD 0, i)
  else none

/-- remove_ring.c:303-321: move the window to column `col`. -/
def medRoll (img : Img K) (row k : Nat) (s : Arr K) (col : Nat) : Option (Arr K) :=
  match (if col + k < img.w then img.rd row (col + k : Nat) else some 0) with
  | none => none
  | some next =>
    let dec : Arr K := fun i =>
      if (s i).2 - 1 < 0 then (next, 2 * k) else ((s i).1, (s i).2 - 1)
    let last := (intRange 0 (2 * k)).foldl (fun l i => if (s i).2 - 1 < 0 then i else l) 0
    bubble (2 * k + 2) dec last (2 * k + 1)

/-- remove_ring.c:272-323, one row with axis 'x': values for the columns `start`, `start + 1`, …,
`stop - 1` (`end_col = stop - 1`); column `start` is filled even if the range is empty. -/
def medRow (img : Img K) (row start stop k : Nat) : Option (List K) :=
  match medInit img row start k with
  | none => none
  | some a0 => match quickSort (2 * k + 2) a0 0 (2 * k) with
    | none => none
    | some s0 =>
      ((List.range (stop - start - 1)).foldlM (fun (p : Arr K × List K) t =>
        (medRoll img row k p.1 (start + 1 + t)).map fun s => (s, p.2 ++ [(s k).1]))
        (s0, [(s0 k).1])).map Prod.snd

/-- remove_ring.c:260-325 `median_filter_fast_1D` with axis 'x' (the only use) on all rows. -/
def medFilter (img prev : Img K) (start stop k : Nat) : Option (Img K) :=
  tabulate img.h img.w fun r c =>
    match medRow img r start stop k with
    | none => none
    | some out => if start ≤ c ∧ c < start + out.length then out[c - start]? else some (prev.px r c)

/-! ### Rolling mean -/

/-- Loop body of the rolling mean for row `start + 1 + t` (remove_ring.c:420-439, 469-488,
512-531). -/
def meanStep (img : Img K) (col k start : Nat) (fl fn : Int → Int) (p : K × List K) (t : Nat) :
    Option (K × List K) :=
  match img.rd (fl ((start : Int) + 1 + t - 1 - k)) col, img.rd (fn ((start : Int) + 1 + t + k)) col,
    img.rd ((start : Int) + 1 + t) col with
  | some l, some n, some v =>
    some (p.1 - l + n, p.2 ++ [if v ≠ 0 then (p.1 - l + n) / (2 * k + 1) else 0])
  | _, _, _ => none

/-- One run of the rolling mean along a column: `f0`, `fl`, `fn` map the row numbers of the first
window, of the row that leaves and of the row that enters (remove_ring.c:399-440, 448-489,
491-532). -/
def meanRun (img : Img K) (col k start stop : Nat) (f0 fl fn : Int → Int) : Option (List K) :=
  match ((intRange (-k) k).mapM fun n => img.rd (f0 (start + n)) col) with
  | none => none
  | some vs =>
    ((List.range (stop - start - 1)).foldlM (meanStep img col k start fl fn)
      (vs.sum, [vs.sum / (2 * k + 1)])).map Prod.snd

/-- remove_ring.c:394-442 INT_MODE_WRAP, `start_row` 0 and `end_row` `height - 1` (lines
581-588). -/
def meanWrap (img : Img K) (col k : Nat) : Option (List K) :=
  meanRun img col k 0 img.h
    (fun c => if c < 0 then c + img.h else if c ≥ img.h then c - img.h else c)
    (fun c => if c < 0 then c + img.h else c)
    (fun c => if c ≥ img.h then c - img.h else c)

/-- remove_ring.c:443-534 INT_MODE_REFLECT: the two halves of the circle separately. -/
def meanReflect (img : Img K) (col k : Nat) : Option (List K) :=
  let h2 : Int := (img.h / 2 : Nat)
  match meanRun img col k 0 (img.h / 2)
      (fun c => if c < 0 then -c else if c ≥ h2 then h2 - (c - h2) - 2 else c)
      (fun c => if c < 0 then -c else c)
      (fun c => if c ≥ h2 then h2 - (c - h2) - 2 else c),
    meanRun img col k (img.h / 2) img.h
      (fun c => if c < h2 then h2 + (h2 - c) else if c ≥ img.h then img.h - (c - img.h) - 2 else c)
      (fun c => if c < h2 then h2 + (h2 - c) else c)
      (fun c => if c ≥ img.h then img.h - (c - img.h) - 2 else c) with
  | some a, some b => some (a ++ b)
  | _, _ => none

/-- `INT_MODE_WRAP` or `INT_MODE_REFLECT` (remove_ring.c:51-52). -/
inductive Mode where
  | wrap
  | reflect
  deriving DecidableEq, Repr

/-- remove_ring.c:394, 443: choice of the mode. -/
def meanCol (mode : Mode) (img : Img K) (col k : Nat) : Option (List K) :=
  match mode with
  | .wrap => meanWrap img col k
  | .reflect => meanReflect img col k

/-- remove_ring.c:386-536 `mean_filter_fast_1D` on the columns `start … stop - 1`. -/
def meanFilter (mode : Mode) (img prev : Img K) (start stop k : Nat) : Option (Img K) :=
  tabulate img.h img.w fun r c =>
    if start ≤ c ∧ c < stop then
      match meanCol mode img c k with
      | none => none
      | some out => out[r]?
    else some (prev.px r c)

/-! ### Ring filter and slices -/

/-- remove_ring.c:567-572. -/
def threshDiff (thr p f : K) : K := if p - f > thr ∨ p - f < -thr then 0 else p - f

/-- remove_ring.c:538-602 `ring_filter`. -/
def ringFilter (mode : Mode) (pol : Img K) (thr : K) (mRad mAzi : Nat) : Option (Img K) := do
  let f ← medFilter pol ⟨pol.h, pol.w, fun _ _ => 0⟩ 0 (pol.w / 3) (mRad / 3)
  let f ← medFilter pol f (pol.w / 3) (2 * pol.w / 3) (2 * mRad / 3)
  let f ← medFilter pol f (2 * pol.w / 3) pol.w mRad
  let d : Img K := ⟨pol.h, pol.w, fun r c => threshDiff thr (pol.px r c) (f.px r c)⟩
  let g ← meanFilter mode d f 0 (pol.w / 3) (mAzi / 3)
  let g ← meanFilter mode d g (pol.w / 3) (2 * pol.w / 3) (2 * mAzi / 3)
  meanFilter mode d g (2 * pol.w / 3) pol.w mAzi

/-- Parameters of `remove_ring` (remove_ring.c:604-607). -/
structure RingArgs (K : Type) where
  cx : K
  cy : K
  tmax : K
  tmin : K
  thr : K
  thetaMin : Nat
  ringWidth : Nat
  mode : Mode

/-- remove_ring.c:620-666: one slice. -/
def removeRingSlice (tg : Trig K) (a : RingArgs K) (img : Img K) : Option (Img K) := do
  let pol ← polarTransform tg img a.cx a.cy a.tmax a.tmin
  let ring ← ringFilter a.mode pol a.thr (2 * a.ringWidth + 1) (pol.h * a.thetaMin / 360)  -- 632-633
  let back ← inversePolar tg ring img.w img.h
  return ⟨img.h, img.w, fun r c => img.px r c - back.px r c⟩                             -- 644-650

/-- corr.py:819-824 `int_mode`. -/
def parseMode (s : String) : Except PyErr Mode :=
  if s.toLower = "wrap" then .ok .wrap
  else if s.toLower = "reflect" then .ok .reflect
  else .error .value

/-- corr.py:805-849 `remove_ring` on a stack of `n` slices: `rec`, and `out` if given.  Slices are
worked on in place in disjoint chunks by threads, each slice on its own, so the order is immaterial;
a chunk size of 0 makes `range` raise.  `none` inside: invalid access. -/
def removeRing (cpu n : Nat) (tg : Trig K) (cx cy : Option K) (tmax tmin thr : K) (thetaMin : Int)
    (rwidth : Nat) (intMode : String) (ncore nchunk : Option Nat) (h w : Nat)
    (rec : Nat → Img K) (out : Option (Nat → Img K)) :
    Except PyErr (Nat → Option (Img K)) := do
  let out0 := match out with                                                    -- 807-810
    | none => rec
    | some o => o
  let cx := cx.getD (((w : K) - 1) / 2)                                         -- 814-817
  let cy := cy.getD (((h : K) - 1) / 2)
  let mode ← parseMode intMode
  if ¬ (0 ≤ thetaMin ∧ thetaMin < 180) then throw .value                        -- 826-827
  let (nc, nk) ← Mproc.getNcoreNchunk cpu n ncore nchunk
  if nc = 0 then throw .value                                                   -- 845
  if nk = 0 ∧ 0 < n then throw .value                                           -- 846
  let a : RingArgs K := ⟨cx, cy, tmax, tmin, thr, thetaMin.toNat, rwidth, mode⟩
  return (Mproc.chunkSlices n nk).foldl (fun (o : Nat → Option (Img K)) slc => fun s =>
    if s ∈ slc.indices n then (o s).bind (removeRingSlice tg a) else o s) (fun s => some (out0 s))

end

end Tomopy.Ring
