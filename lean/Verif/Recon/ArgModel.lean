import Verif.Base
import Mathlib.Data.List.Range

/-! Model of which elements of the angles, the centres and the data are read, for arrays of any length
(source/tomopy/recon/algorithm.py:262-335, source/tomopy/recon/vector.py:70-135,
source/tomopy/sim/project.py:303-340,400-425,470-475, source/libtomo/recon, source/libtomo/gridrec). -/

namespace Tomopy.Recon

/-- The arrays that are read through pointers (source/tomopy/util/extern/recon.py:86-612): angles, centres,
and the data set of the given number. -/
inductive Buf where
  | theta
  | center
  | data (k : Nat)
  deriving DecidableEq, Repr

/-- A read: the array and the position. -/
abbrev Read := Buf × Nat

/-- Number of elements of `get_center(shape, center)` (source/tomopy/sim/project.py:470-475) with
`shape[0] = n`; `none`: no centre given, `some m`: a one-dimensional array (or a number, `m = 1`). -/
def centerLen (n : Nat) : Option Nat → Nat
  | none => n
  | some 1 => n
  | some m => m

/-- The loops of the reconstruction functions, by the way they visit slices and views
(source/libtomo/recon, source/libtomo/gridrec/gridrec.c). -/
inductive Kern where
  | art | fbp | gridrec | subsets | views
  deriving DecidableEq, Repr

/-- What a reconstruction function reads of `theta` and `center` (source/libtomo/recon/art.c:81-95,
fbp.c:77-89, bart.c:84-117 (osem.c, ospml_quad.c and ospml_hybrid.c alike), grad.c:112-134 (tikh.c and tv.c
alike), source/libtomo/gridrec/gridrec.c:137-141,312-315), for `dy` slices.  `ind` are the views in the order
of the subsets, `ind_block[0 .. dt)` or `0 .. dt - 1`; the reads of `ind_block` itself are left out. -/
def kernReads (k : Kern) (dy dt num_iter : Nat) (ind : List Nat) : List Read :=
  match k with
  | .art => (List.range num_iter).flatMap fun _ =>
      (Buf.center, 0) :: (List.range dt).map fun p => (Buf.theta, p)
  | .fbp => (List.range dy).flatMap fun s =>
      (Buf.center, s) :: (List.range dt).map fun p => (Buf.theta, p)
  | .gridrec => ((List.range dt).map fun p => (Buf.theta, p)) ++
      ((List.range dy).filter (· % 2 = 0)).map fun s => (Buf.center, s)
  | .subsets => (List.range num_iter).flatMap fun _ => (List.range dy).flatMap fun s =>
      (Buf.center, s) :: ind.map fun p => (Buf.theta, p)
  | .views => (List.range num_iter).flatMap fun _ => (List.range dy).flatMap fun s =>
      (Buf.center, s) :: (List.range dt).map fun p => (Buf.theta, p)

/-- Reads of the block of slices `lo ≤ s < hi` (`center[slc]`,
source/tomopy/recon/algorithm.py:430,452): positions in the array of all centres. -/
def blockReads (k : Kern) (dt num_iter : Nat) (ind : List Nat) (b : Nat × Nat) : List Read :=
  (kernReads k (b.2 - b.1) dt num_iter ind).map fun r =>
    if r.1 = Buf.center then (r.1, b.1 + r.2) else r

/-- `recon` (source/tomopy/recon/algorithm.py:262-335) for data of `n` slices and `dt` views, as far as the
lengths matter: the number of angles is compared with the number of views (lines 265-267), the number of
centres with that of the slices (lines 318-320).  `blocks` are the slices of the workers. -/
def reconReads (k : Kern) (n dt num_iter : Nat) (ind : List Nat) (thetas : Nat) (center : Option Nat)
    (blocks : List (Nat × Nat)) : Except PyErr (List Read) :=
  if dt ≠ thetas then .error .value
  else if n ≠ centerLen n center then .error .value
  else .ok (blocks.flatMap (blockReads k dt num_iter ind))

/-- One pass of `vector`, `vector2`, `vector3` over data set `k` of `dy` slices, `dt` views and `dx` columns
(source/libtomo/recon/vector.c:87-171,239-330,337-428 and the same in `vector3`): `hit s p d` says whether the
ray crosses the grid (`sum_dist2 != 0`), `theta1` and `center1` are used in all passes. -/
def passReads (k dy dt dx : Nat) (hit : Nat → Nat → Nat → Bool) : List Read :=
  (List.range dy).flatMap fun s =>
    (Buf.center, s) :: (List.range dt).flatMap fun p =>
      (Buf.theta, p) :: ((List.range dx).filter (hit s p)).map fun d => (Buf.data k, d + p * dx + s * dt * dx)

/-- `vector` (one data set), `vector2` (two) and `vector3` (three) (source/tomopy/recon/vector.py:70-135,
source/tomopy/util/extern/recon.py:527-612): the sizes are those of the first data set; nothing is
compared.  Shapes are those in sinogram order. -/
def vectorReads (sets dy dt dx num_iter : Nat) (hit : Nat → Nat → Nat → Bool) : List Read :=
  (List.range num_iter).flatMap fun _ => (List.range sets).flatMap fun k => passReads k dy dt dx hit

/-- `project` (source/tomopy/sim/project.py:303-330, source/libtomo/recon/project.c:79-88): as many views as
angles; `distribute_jobs` hands blocks of `nchunk` slices to the C function, which reads the first centre of
its block; a slice that starts behind the end of the array is empty and starts at its end.  `nchunk = 0`
(single slices without the axis) is not modelled. -/
def projectReads (oy dt nchunk m : Nat) : List Read :=
  ((List.range oy).filter (· % nchunk = 0)).flatMap fun lo =>
    (Buf.center, min lo m) :: (List.range dt).map fun p => (Buf.theta, p)

/-- `project2`, `project3` (source/tomopy/sim/project.py:400-425, source/libtomo/recon/project.c:172-181,277-286):
one call for all slices, which reads the first centre. -/
def project23Reads (dt : Nat) : List Read :=
  (Buf.center, 0) :: (List.range dt).map fun p => (Buf.theta, p)

end Tomopy.Recon
