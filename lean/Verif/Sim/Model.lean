import Verif.Iter.Model
import Verif.Mproc.Model
import Verif.Recon.Model
import Mathlib.Analysis.SpecialFunctions.Exp

/-!
# `tomopy.sim.project.project`

The arrays of the call are passed to `distribute_jobs` (`Verif.Mproc`), the worker is
`c_project`, which runs the C function `project` (`Verif.Iter.project`) on its chunk.
-/

set_option linter.unusedSectionVars false

namespace Tomopy.Sim

open Tomopy.Iter Tomopy.Mproc Tomopy.Recon

section Generic

variable {K : Type} [Field K] [LinearOrder K] [IsStrictOrderedRing K]

/-- Argument `j` of a chunk as the flat C array of its contiguous view: `w` elements per slice
(`source/tomopy/util/extern/recon.py:90,106-116`). -/
def flat (w : Nat) (rows : List (List (Mem K))) (j : Nat) : Mem K := fun n =>
  (rows.getD (n / w) []).getD j zeros (n % w)

/-- `c_project` on one chunk of `(obj, center, tomo)`
(`source/tomopy/util/extern/recon.py:86-117`): `tomo` is modified in place, nothing is returned.
`geo c p d` are the segments of the ray for rotation centre `c`. -/
def cProject (dt dx N : Nat) (geo : K → Nat → Nat → Segs K) : BlockFun (Mem K) where
  ret := fun _ => none
  inplace := fun rows => (List.range rows.length).map fun s =>
    [(rows.getD s []).getD 0 zeros, (rows.getD s []).getD 1 zeros,
      fun n => project ⟨rows.length, dt, dx, N⟩ (fun s => geo (flat 1 rows 1 s)) (flat N rows 0)
        (flat (dt * dx) rows 2) (n + s * (dt * dx))]

/-- The call of `distribute_jobs` (`source/tomopy/sim/project.py:318-324`): arrays 0 (`obj`),
1 (`center`), 2 (`tomo`, shared memory, line 314); the result is `tomo`. -/
def projectCall (oy dt dx N : Nat) (geo : K → Nat → Nat → Segs K) (sharedObj sharedCen : Bool)
    (ncore nchunk : Option Nat) : Call (Mem K) where
  n := oy
  ins := [0, 1, 2]
  out := none
  shared := fun k => if k = 0 then sharedObj else if k = 1 then sharedCen else true
  f := cProject dt dx N geo
  ncore := ncore
  nchunk := nchunk
  raises := fun _ => false

/-- The arrays before the call (`source/tomopy/sim/project.py:300-316`): `tomo[:] = 0.0`. -/
def projectMem (obj : Nat → Mem K) (center : Nat → K) : Cell → Mem K := fun c =>
  if c.1 = .caller 0 then obj c.2 else if c.1 = .caller 1 then fun _ => center c.2 else zeros

/-- `get_center` (`source/tomopy/sim/project.py:470-475`); the default is half the width. -/
def getCenter (oy dx : Nat) : Option (List K) → List K
  | none => List.replicate oy ((dx : K) / 2)
  | some cs => if cs.length = 1 then List.replicate oy (cs.getD 0 0) else cs

/-- The projections in sinogram order before the conversion of line 326
(`source/tomopy/sim/project.py:304-324`), as a relation because of the schedule of the pool.
`cpu` is the number of processors, `debug` the module flag of `mproc`.  Simplification: the
centre array has one value per slice. -/
def ProjectSino (cpu : Nat) (debug : Bool) (oy dt dx N : Nat) (geo : K → Nat → Nat → Segs K)
    (sharedObj sharedCen : Bool) (ncore nchunk : Option Nat) (obj : Nat → Mem K)
    (center : Option (List K)) (result : Arr3 K) : Prop :=
  ∃ m' res, DistributeJobs cpu debug (projectCall oy dt dx N geo sharedObj sharedCen ncore nchunk)
      (fun _ => false) (projectMem obj fun s => (getCenter oy dx center).getD s 0) m' res ∧
    result = ⟨oy, dt, dx, fun s p d => m' (res, s) (d + p * dx)⟩

end Generic

/-- The `pad` argument: `True`, `False` or anything else (`source/tomopy/sim/project.py:309-312`
tests identity with the two constants). -/
inductive Pad
  | yes | no | other

/-- `_round_to_even` (`source/tomopy/sim/project.py:264-265`). -/
noncomputable def roundToEven (x : ℝ) : Nat := ⌈x / 2⌉₊ * 2

/-- The detector width (`source/tomopy/sim/project.py:309-313`); another value of `pad` leaves
`dx` unassigned (UnboundLocalError, a NameError). -/
noncomputable def projectWidth (ox oz : Nat) : Pad → Except PyErr Nat
  | .yes => .ok (roundToEven (Real.sqrt ((ox : ℝ) * ox + oz * oz) + 2))
  | .no => .ok ox
  | .other => .error .name

/-- Conversion to transmission data and radiograph order
(`source/tomopy/sim/project.py:326-333`). -/
noncomputable def projectPost (emission sinogramOrder : Bool) (a : Arr3 ℝ) : Arr3 ℝ :=
  let b : Arr3 ℝ := if emission then a else { a with get := fun i j k => Real.exp (-a.get i j k) }
  if sinogramOrder then b else swap01 b

/-- `project` (`source/tomopy/sim/project.py:268-335`). -/
def Project (cpu : Nat) (debug : Bool) (oy ox oz : Nat) (obj : Nat → Mem ℝ) (theta : List ℝ)
    (center : Option (List ℝ)) (emission : Bool) (pad : Pad) (sinogramOrder : Bool)
    (sharedObj sharedCen : Bool) (ncore nchunk : Option Nat) (result : Arr3 ℝ) : Prop :=
  ∃ dx sino, projectWidth ox oz pad = .ok dx ∧
    ProjectSino cpu debug oy theta.length dx (ox * oz)
      (fun c => tracerGeom ox oz dx (fun _ => c) (fun p => theta.getD p 0) 0)
      sharedObj sharedCen ncore nchunk obj center sino ∧
    result = projectPost emission sinogramOrder sino

end Tomopy.Sim
