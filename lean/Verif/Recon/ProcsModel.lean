import Verif.Recon.Model

/-! Accelerated reconstruction: the process pool of `_dist_recon` and the device each group of slices runs on. -/

set_option linter.unusedSectionVars false

namespace Tomopy.Recon
open Tomopy.Mproc

variable {α β ε : Type}

/-- The accelerated algorithm as `_run_accel_algorithm` calls it (source/tomopy/recon/algorithm.py:383-389): from the
value of TOMOPY_DEVICE_NUM it sees and the data and images of its slices to their new images, or what it raises.
Simplification: a worker that raises has not changed its images. -/
abbrev AccelWorker (α β ε : Type) := Option Nat → List (β × α) → Except ε (List α)

/-- `tomo[slc], center[slc], recon[slc]` (source/tomopy/recon/algorithm.py:430, 441); `tomo i` stands for the data and
the centre of slice `i`. -/
def rowsOf (tomo : Nat → β) (recon : Nat → α) (c : List Nat) : List (β × α) := c.map fun i => (tomo i, recon i)

/-- `recon[slc] = f.result()` (source/tomopy/recon/algorithm.py:447). -/
def writeRows (recon : Nat → α) (c : List Nat) (rows : List α) : Nat → α :=
  fun i => ((c.zip rows).lookup i).getD (recon i)

/-- source/tomopy/recon/algorithm.py:438-442 with 385-389: what the futures hold.  Every process works on copies of its
arguments and sets TOMOPY_DEVICE_NUM to the number of the group. -/
def futures (worker : AccelWorker α β ε) (chunks : List (List Nat)) (tomo : Nat → β) (recon : Nat → α) :
    List (List Nat × Except ε (List α)) :=
  chunks.mapIdx fun idx c => (c, worker (some idx) (rowsOf tomo recon c))

/-- source/tomopy/recon/algorithm.py:444-447: the results are written back in the order of the groups; the first
exception ends that. -/
def collect : List (List Nat × Except ε (List α)) → (Nat → α) → (Nat → α) × Option ε
  | [], r => (r, none)
  | (_, .error e) :: _, r => (r, some e)
  | (c, .ok rows) :: t, r => collect t (writeRows r c rows)

/-- The process pool (source/tomopy/recon/algorithm.py:435-447). -/
def procRecon (worker : AccelWorker α β ε) (chunks : List (List Nat)) (tomo : Nat → β) (recon : Nat → α) :
    (Nat → α) × Option ε := collect (futures worker chunks tomo recon) recon

/-- source/tomopy/recon/algorithm.py:427-430: one group after the other in this process, which sees its own
TOMOPY_DEVICE_NUM. -/
def serialRecon (worker : AccelWorker α β ε) (dev : Option Nat) (tomo : Nat → β) :
    List (List Nat) → (Nat → α) → (Nat → α) × Option ε
  | [], r => (r, none)
  | c :: cs, r =>
    match worker dev (rowsOf tomo r c) with
    | .error e => (r, some e)
    | .ok rows => serialRecon worker dev tomo cs (writeRows r c rows)

/-- `_dist_recon` with `accelerated` (source/tomopy/recon/algorithm.py:392-447); `limit` is TOMOPY_PYTHON_THREADS,
`none` is an executor of size 0, which raises. -/
def distAccel (cpu n : Nat) (ncore nchunk limit : Option Nat) (worker : AccelWorker α β ε) (dev : Option Nat)
    (tomo : Nat → β) (recon : Nat → α) : Except PyErr (Option ((Nat → α) × Option ε)) :=
  match getNcoreSlices cpu n ncore nchunk with
  | .error e => .error e
  | .ok (nc, slcs) =>
    let chunks := useChunks n slcs
    let nc := min nc slcs.length
    let nc := if chunks.length < nc then chunks.length else nc
    let nc := limitedCores nc limit
    if nc = 0 then .ok none
    else if nc = 1 then .ok (some (serialRecon worker dev tomo chunks recon))
    else .ok (some (procRecon worker chunks tomo recon))

/-- source/libtomo/accel/gpu/mlem.cu:177-179, sirt.cu:174-176: the device a call runs on; `counter` counts the calls in
this process. -/
def deviceOf (devices counter : Nat) (env : Option Nat) : Nat := (env.getD (counter % devices)) % devices

end Tomopy.Recon
