import Verif.Base
import Verif.Num.Order

/-! Model of source/tomopy/prep/normalize.py and libtomo/prep/prep.c. -/
namespace Tomopy.Normalize
open Tomopy.Num

variable {K : Type} [LinearOrder K] [Field K] [IsStrictOrderedRing K]

/-- 2D image (normalize.py:108-117); the size is kept separately where it matters. -/
abbrev Img (K : Type) := Nat → Nat → K

/-- normalize.py:146-154: averaging of a stack of flats or darks.  Stacks are assumed non-empty
(the mean of an empty stack is NaN).  A 2D argument is a stack of one (142-145). -/
def average (mode : String) (stack : List (Img K)) : Except PyErr (Img K) :=
  if mode = "mean" then .ok fun y x => mean (stack.map fun im => im y x)
  else if mode = "median" then .ok fun y x => npMedian (stack.map fun im => im y x)
  else .error .value

/-- normalize.py:141 `l = np.float32(1e-6)`; exact decimal value instead of its float32
rounding. -/
def floorDenom : K := 1 / 1000000

/-- normalize.py:157-158 `denom = flat-dark; where(denom<l,l,denom)`. -/
def denominator (f d : K) : K := if f - d < floorDenom then floorDenom else f - d

/-- normalize.py:157-163 on one pixel: `a` raw value, `f` flat, `d` dark. -/
def normalizePix (cutoff : Option K) (a f d : K) : K :=
  let out := (a - d) / denominator f d
  match cutoff with
  | none => out
  | some c => if out > c then c else out

/-- normalize.py:98-164 `normalize` (values; `out`/`ncore` only decide where the result is
stored and how many threads numexpr uses). -/
def normalize (mode : String) (cutoff : Option K) (arr : Nat → Img K)
    (flats darks : List (Img K)) : Except PyErr (Nat → Img K) := do
  let f ← average mode flats
  let d ← average mode darks
  return fun t y x => normalizePix cutoff (arr t y x) (f y x) (d y x)

/-! ### normalize_roi -/

/-- Pixels of `proj[r0:r2, r1:r3]` for an h×w image (normalize.py:201), non-negative bounds. -/
def roiPixels (h w r0 r1 r2 r3 : Nat) (p : Img K) : List K :=
  ((List.range h).filter fun y => r0 ≤ y ∧ y < r2).flatMap fun y =>
    ((List.range w).filter fun x => r1 ≤ x ∧ x < r3).map fun x => p y x

/-- normalize.py:200-204 `_normalize_roi`; `none` means that the projection is filled with NaN
(mean of an empty window is NaN, and `NaN != 0`). -/
def normalizeRoi (h w r0 r1 r2 r3 : Nat) (p : Img K) : Option (Img K) :=
  let px := roiPixels h w r0 r1 r2 r3 p
  if px = [] then none
  else
    let bg := mean px
    if bg ≠ 0 then some fun y x => p y x / bg else some p

/-! ### normalize_bg -/

/-- Checked read of a flat C array of `size` floats (prep.c:62-63); `none` is an access outside
the array. -/
def rd (size : Nat) (mem : Nat → K) (i : Int) : Option K :=
  if 0 ≤ i ∧ i < size then some (mem i.toNat) else none

/-- prep.c:60-64: sums of the leftmost and rightmost `nair` pixels of the row starting at `i`. -/
def airSums (size : Nat) (mem : Nat → K) (i dz : Nat) : Nat → Option (K × K)
  | 0 => some (0, 0)
  | j + 1 => do
    let (l, r) ← airSums size mem i dz j
    let a ← rd size mem (i + j)
    let b ← rd size mem ((i : Int) + dz - 1 - j)
    return (l + a, r + b)

/-- prep.c:66-76: mean with replacement of non-positive values by one. -/
def airLevel (s : K) (nair : Nat) : K := if s / nair ≤ 0 then 1 else s / nair

/-- prep.c:58-84: one row, in place.  `none`: access outside the array, or (for `nair = 0` or
`dz = 1`) a 0/0 that makes the row NaN. -/
def bgRow (size dz nair : Nat) (mem : Nat → K) (i : Nat) : Option (Nat → K) := do
  if nair = 0 ∨ dz ≤ 1 then none
  else
    let (l, r) ← airSums size mem i dz nair
    let left := airLevel l nair
    let right := airLevel r nair
    let slope := (right - left) / (((dz - 1 : Nat) : K))
    return fun q => if i ≤ q ∧ q < i + dz then mem q / (left + slope * ((q - i : Nat) : K))
      else mem q

/-- prep.c:46-87 `normalize_bg` on a stack of `rows = dx*dy` rows (loops 52 and 56 merged: row
number `m*dy+n`). -/
def normalizeBg (rows dz nair : Nat) (mem : Nat → K) : Option (Nat → K) :=
  (List.range rows).foldlM (fun m r => bgRow (rows * dz) dz nair m (r * dz)) mem

/-! ### normalize_nf -/

/-- `int(np.round(d/2))` (normalize.py:328), round half to even. -/
def roundHalf (d : Int) : Int :=
  if d % 2 = 0 then d / 2 else if (d / 2) % 2 = 0 then d / 2 else d / 2 + 1

/-- State of the loop normalize.py:318-336: `tend` and the part of `out` written so far
(`none`: still uninitialised memory of `np.empty_like`, line 301). -/
structure NfState (K : Type) where
  tend : Int
  out : Nat → Option (Img K)

/-- normalize.py:326-328: end of segment `m`. -/
def segEnd (total : Nat) (locs : List Int) (m : Nat) : Int :=
  if m + 1 ≥ locs.length then total
  else roundHalf (locs.getD (m + 1) 0 - locs.getD m 0) + locs.getD m 0

/-- normalize.py:315-321: median of flat group `m`. -/
def groupFlat (flats : List (Img K)) (numFlats m : Nat) : Img K :=
  let per := flats.length / numFlats
  fun y x => npMedian (((flats.drop (m * per)).take per).map fun im => im y x)

/-- normalize.py:318-336: body of the loop. -/
def nfStep (cutoff : Option K) (tomo : Nat → Img K) (total : Nat) (flats : List (Img K))
    (dark : Img K) (locs : List Int) (s : NfState K) (m : Nat) : NfState K :=
  let tstart := if m = 0 then 0 else s.tend
  let tend := segEnd total locs m
  let flat := groupFlat flats locs.length m
  { tend := tend
    out := fun t => if t < total ∧ pyBound total tstart ≤ t ∧ (t : Int) < pyBound total tend then
        some fun y x => normalizePix cutoff (tomo t y x) (flat y x) (dark y x)
      else s.out t }

/-- normalize.py:245-338 `normalize_nf`.  `averaging='median'` calls `np.median` with the
argument `dtype`, which it does not have: `TypeError` (305).  An empty `flat_loc` divides by
zero (315). -/
def normalizeNf (mode : String) (cutoff : Option K) (tomo : Nat → Img K) (total : Nat)
    (flats darks : List (Img K)) (locs : List Int) :
    Except PyErr (Nat → Option (Img K)) :=
  if mode = "mean" then
    if locs.length = 0 then .error .zeroDivision
    else
      let dark : Img K := fun y x => mean (darks.map fun im => im y x)
      .ok ((List.range locs.length).foldl
        (nfStep cutoff tomo total flats dark locs) ⟨0, fun _ => none⟩).out
  else if mode = "median" then .error .type
  else .error .value

end Tomopy.Normalize
