import Verif.Mproc.Model
import Verif.Normalize.Model

/-! Model of the front ends `normalize_roi` and `normalize_bg` (source/tomopy/prep/normalize.py:168-242),
which hand the projections to `distribute_jobs`.

Simplifications: exact arithmetic, as in Model; the array given is not in shared memory. -/
set_option linter.unusedSectionVars false
namespace Tomopy.Normalize
open Mproc Tomopy.Num

variable {K : Type} [Field K] [LinearOrder K] [IsStrictOrderedRing K]

/-- The first of the arrays of a block, laid out as C sees it: projections of `dy` rows and `dz`
columns one after the other (`tomo.shape` and the pointer, source/tomopy/util/extern/prep.py:70-78). -/
def blockMem (dy dz : Nat) (rows : List (List (Img K))) : Nat → K := fun q =>
  (rows.getD (q / dz / dy) []).headD (fun _ _ => 0) (q / dz % dy) (q % dz)

/-- `c_normalize_bg` on a block of projections (source/tomopy/util/extern/prep.py:69-78): the C
function changes the memory of the block.  Where it is undefined (`normalizeBg … = none`: C123) the
block is left as it is; the theorems exclude this. -/
def bgBlock (dy dz air : Nat) : BlockFun (Img K) where
  inplace rows :=
    match normalizeBg (rows.length * dy) dz air (blockMem dy dz rows) with
    | none => rows
    | some mem => rows.mapIdx fun k row => row.modifyHead fun p r c =>
        if r < dy ∧ c < dz then mem ((k * dy + r) * dz + c) else p r c
  ret _ := none

/-- `normalize_bg(tomo, air, ncore, nchunk)` for `n` projections (normalize.py:207-242).  With
`nchunk = 0` a block has two dimensions and `dt, dy, dx = tomo.shape` raises
(source/tomopy/util/extern/prep.py:70). -/
def NormalizeBg (cpu : Nat) (debug : Bool) (n dy dz air : Nat) (ncore nchunk : Option Nat)
    (tomo : Nat → Img K) (result : Except PyErr (Nat → Img K)) : Prop :=
  match getNcoreNchunk cpu n ncore nchunk with
  | .error e => result = .error e
  | .ok (_, nk) =>
    if nk = 0 ∧ 0 < n then result = .error .value
    else ∃ m m' res, (∀ i < n, m (.caller 0, i) = tomo i) ∧
      DistributeJobs cpu debug
        ⟨n, [0], none, fun _ => false, bgBlock dy dz air, ncore, nchunk, fun _ => false⟩
        (fun _ => false) m m' res ∧
      result = .ok fun i => m' (res, i)

/-- A projection as `_normalize_roi` leaves it; `none` is NaN (normalize.py:200-204). -/
abbrev NanImg (K : Type) := Nat → Nat → Option K

/-- `_normalize_roi` in place on a projection of `h × w` whose pixels may be NaN, as a window with a NaN
has the mean NaN and `NaN != 0` (normalize.py:200-204). -/
def roiNan (h w r0 r1 r2 r3 : Nat) (p : NanImg K) : NanImg K :=
  let px := ((List.range h).filter fun y => r0 ≤ y ∧ y < r2).flatMap fun y =>
    ((List.range w).filter fun x => r1 ≤ x ∧ x < r3).map fun x => p y x
  if px = [] ∨ none ∈ px then fun _ _ => none
  else
    let bg := mean (px.map (·.getD 0))
    if bg ≠ 0 then fun y x => (p y x).map (· / bg) else p

/-- `_normalize_roi` on a block: with `nchunk = 0` every block is one projection without the axis
(normalize.py:189-196, mproc.py:287-289). -/
def roiBlock (h w r0 r1 r2 r3 : Nat) : BlockFun (NanImg K) where
  inplace rows := rows.map fun row => row.modifyHead (roiNan h w r0 r1 r2 r3)
  ret _ := none

/-- `normalize_roi(arr, roi, ncore)` for `n` projections, bounds of the window not negative
(normalize.py:168-197). -/
def NormalizeRoi (cpu : Nat) (debug : Bool) (n h w r0 r1 r2 r3 : Nat) (ncore : Option Nat)
    (tomo : Nat → Img K) (result : Except PyErr (Nat → NanImg K)) : Prop :=
  match getNcoreNchunk cpu n ncore (some 0) with
  | .error e => result = .error e
  | .ok _ => ∃ m m' res, (∀ i < n, m (.caller 0, i) = fun y x => some (tomo i y x)) ∧
      DistributeJobs cpu debug
        ⟨n, [0], none, fun _ => false, roiBlock h w r0 r1 r2 r3, ncore, some 0, fun _ => false⟩
        (fun _ => false) m m' res ∧
      result = .ok fun i => m' (res, i)

end Tomopy.Normalize
