import Verif.Mproc.Model
import Mathlib.Algebra.BigOperators.Group.List.Basic

/-! Model of where the workers of `_dist_recon` write, for initial guesses of any shape and for blocks
of all kinds (source/tomopy/recon/algorithm.py:325-332, 350-366, 392-458). -/

namespace Tomopy.Recon

open Tomopy.Mproc

/-- What `a[slc]` is for a C-contiguous array: an array (shape, and where it starts in the memory of
`a`) or a numpy scalar (source/tomopy/recon/algorithm.py:403, 430, 452). -/
inductive Item where
  | arr (shape : List Nat) (start : Nat)
  | scalar
  deriving DecidableEq, Repr

/-- `a[slc]` (source/tomopy/recon/algorithm.py:403, 430, 452): `slc` is `s_[lo:hi]` or `s_[i]`. -/
def pick : List Nat → Slc → Except PyErr Item
  | [], _ => .error .index
  | n :: t, .range lo hi => .ok (.arr ((min hi n - lo) :: t) (lo * t.prod))
  | n :: t, .idx i =>
    if n ≤ i then .error .index
    else if t = [] then .ok .scalar else .ok (.arr t (i * t.prod))

/-- `min(_tomo.shape) > 0` (source/tomopy/recon/algorithm.py:404-405). -/
def Item.nonempty : Item → Bool
  | .arr shape _ => shape.all (0 < ·)
  | .scalar => false

/-- `as_c_float_p` (source/tomopy/util/dtype.py:121-123): numpy scalars have no attribute `ctypes`. -/
def floatP : Item → Except PyErr Nat
  | .arr _ start => .ok start
  | .scalar => .error .attribute

/-- The wrappers of the reconstruction functions (source/tomopy/util/extern/recon.py:190-211 and the
others alike): number of slices, then the pointers.  Result: the C function writes `count` cells
from `start` on (`recon[0 .. dy*ngridx*ngridy)`, source/libtomo/recon/art.c:93-110). -/
def cCall (tomo center recon : Item) (gx gy : Nat) : Except PyErr (Nat × Nat) := do
  let dy ← match tomo with
    | .arr [_, _] _ => .ok 1
    | .arr [dy, _, _] _ => .ok dy
    | _ => .error PyErr.value
  let _ ← floatP tomo
  let _ ← floatP center
  let start ← floatP recon
  .ok (start, dy * (gx * gy))

/-- source/tomopy/recon/algorithm.py:400-407: the blocks with data. -/
def usedSlices (tomo : List Nat) : List Slc → Except PyErr (List Slc)
  | [] => .ok []
  | s :: ss => do
    let t ← pick tomo s
    let r ← usedSlices tomo ss
    .ok (if t.nonempty then s :: r else r)

/-- source/tomopy/recon/algorithm.py:430, 452: one call. -/
def blockCall (n dt dx : Nat) (shape : List Nat) (gx gy : Nat) (s : Slc) :
    Except PyErr (Nat × Nat) := do
  let t ← pick [n, dt, dx] s
  let c ← pick [n] s
  let r ← pick shape s
  cCall t c r gx gy

/-- `_dist_recon` (source/tomopy/recon/algorithm.py:392-458) on sinograms of shape `(n, dt, dx)`, one
centre for each of the `n` slices, and a C-contiguous float32 array `recon` of the given shape, which
for an initial guess is not compared with `(n, num_gridx, num_gridy)` (lines 325-330, 363).  Result: the
blocks of memory written, in the order of the blocks.  Simplifications: TOMOPY_PYTHON_THREADS is not
set; if several blocks raise, the exception of the first is taken. -/
def distWrites (cpu n dt dx : Nat) (shape : List Nat) (gx gy : Nat) (ncore nchunk : Option Nat) :
    Except PyErr (List (Slc × Nat × Nat)) :=
  match shape with
  | [] => .error .index
  | m :: _ => do
    let (_, slcs) ← getNcoreSlices cpu m ncore nchunk
    let used ← usedSlices [n, dt, dx] slcs
    if used.isEmpty then .error .value
    else used.mapM fun s => do
      let w ← blockCall n dt dx shape gx gy s
      .ok (s, w)

end Tomopy.Recon
