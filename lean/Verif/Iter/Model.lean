import Verif.Ray.Quadrant
import Mathlib.Logic.Function.Basic

/-!
# Forward projection, back-projection and the iterative methods of libtomo

Arrays are memories `Nat → K` (flat index to value); all index arithmetic of the C code is kept.
The segments of a ray are a list of `(indi[n], dist[n])`; `Geom` gives them for
`(slice whose centre is used, projection, detector pixel)`.  Which lists the tracer produces is
the subject of `Verif.Ray`; `tracerGeom` connects the two.  `none` is a division by zero, i.e. a
non-finite float.
-/

set_option linter.unusedSectionVars false

namespace Tomopy.Iter

open Function (update)

variable {K : Type*} [Field K] [LinearOrder K] [IsStrictOrderedRing K]

/-- A flat C array of floats (`source/libtomo/recon/art.c:49`, arguments `data`, `recon`). -/
abbrev Mem (K : Type*) := Nat → K

/-- The segments of one ray (`indi`, `dist` with `csize - 1` entries,
`source/libtomo/recon/art.c:123-127`). -/
abbrev Segs (K : Type*) := List (Nat × K)

/-- Segments by slice (for `center[s]`), projection and detector pixel, as computed in the loops
(`source/libtomo/recon/art.c:86-127`, `osem.c:95-146`). -/
abbrev Geom (K : Type*) := Nat → Nat → Nat → Segs K

/-- `m[i] += v` (`source/libtomo/recon/utils.c:367`). -/
def addAt (m : Mem K) (i : Nat) (v : K) : Mem K := update m i (m i + v)

/-- `memset(m, 0, ...)` (`source/libtomo/recon/art.c:84`). -/
def zeros : Mem K := fun _ => 0

/-- The sizes of one call (`source/libtomo/recon/art.c:49-50`): slices, projections, detector
width, pixels per slice (`ngridx * ngridy`). -/
structure Dims where
  dy : Nat
  dt : Nat
  dx : Nat
  N : Nat

/-- `d + p * dx + s * dt * dx` (`source/libtomo/recon/utils.c:364`, `art.c:143`). -/
def Dims.data (D : Dims) (s p d : Nat) : Nat := d + p * D.dx + s * D.dt * D.dx

/-- `calc_simdata` (`source/libtomo/recon/utils.c:359-369`). -/
def calcSimdata (D : Dims) (s p d : Nat) (ray : Segs K) (model simdata : Mem K) : Mem K :=
  ray.foldl (fun sd e => addAt sd (D.data s p d) (model (e.1 + s * D.N) * e.2)) simdata

/-- `sum_dist2` (`source/libtomo/recon/art.c:126-130`, `osem.c:154-157`). -/
def sumDist2 (ray : Segs K) : K := ray.foldl (fun a e => a + e.2 * e.2) 0

/-- `project` (`source/libtomo/recon/project.c:51-138`): the centre of the first slice is used
for all slices. -/
def project (D : Dims) (g : Geom K) (obj data : Mem K) : Mem K :=
  if D.dy = 0 ∨ D.dt = 0 ∨ D.dx = 0 then data else
  (List.range D.dt).foldl (fun m p => (List.range D.dx).foldl (fun m d =>
    (List.range D.dy).foldl (fun m s => calcSimdata D s p d (g 0 p d) obj m) m) m) data

/-- `recon[indi[n] + ind_recon] += v * dist[n]` for all segments
(`source/libtomo/recon/fbp.c:122-125`, `art.c:146-149`). -/
def spread (D : Dims) (s : Nat) (ray : Segs K) (v : K) (recon : Mem K) : Mem K :=
  ray.foldl (fun r e => addAt r (e.1 + s * D.N) (v * e.2)) recon

/-- `fbp` (`source/libtomo/recon/fbp.c:48-142`): the unfiltered back-projection; the filter
arguments are not used by the C code. -/
def fbp (D : Dims) (g : Geom K) (data recon : Mem K) : Mem K :=
  if D.dy = 0 ∨ D.dt = 0 ∨ D.dx = 0 then recon else
  (List.range D.dy).foldl (fun m s => (List.range D.dt).foldl (fun m p =>
    (List.range D.dx).foldl (fun m d => spread D s (g s p d) (data (D.data s p d)) m) m) m) recon

/-- The body of the innermost loop of `art` (`source/libtomo/recon/art.c:132-150`) for one ray
and one slice, acting on `(recon, simdata)`. -/
def artStep (D : Dims) (g : Geom K) (data : Mem K) (st : Mem K × Mem K) (p d s : Nat) :
    Mem K × Mem K :=
  if sumDist2 (g 0 p d) ≠ 0 then
    (spread D s (g 0 p d)
      ((data (D.data s p d) - calcSimdata D s p d (g 0 p d) st.1 st.2 (D.data s p d))
        / sumDist2 (g 0 p d)) st.1,
     calcSimdata D s p d (g 0 p d) st.1 st.2)
  else st

/-- One iteration of `art` (`source/libtomo/recon/art.c:83-153`). -/
def artIter (D : Dims) (g : Geom K) (data recon : Mem K) : Mem K :=
  ((List.range D.dt).foldl (fun st p => (List.range D.dx).foldl (fun st d =>
    (List.range D.dy).foldl (fun st s => artStep D g data st p d s) st) st) (recon, zeros)).1

/-- `art` (`source/libtomo/recon/art.c:48-168`). -/
def art (D : Dims) (g : Geom K) (data : Mem K) (num_iter : Nat) (recon : Mem K) : Mem K :=
  if D.dy = 0 ∨ D.dt = 0 ∨ D.dx = 0 then recon else (artIter D g data)^[num_iter] recon

/-! ## Ordered subsets -/

/-- The `(subset_start, subset_end)` of every subset (`source/libtomo/recon/osem.c:85-86,99-103`,
`bart.c:84-85,98-102`, `ospml_quad.c:84-85,97-101`), starting at block `os` and index `start`. -/
def subsetsFrom (dt nb : Nat) : (count os start : Nat) → List (Nat × Nat)
  | 0, _, _ => []
  | k + 1, os, start =>
    (start, start + dt / nb + (if os < dt % nb then 1 else 0)) ::
      subsetsFrom dt nb k (os + 1) (start + dt / nb + (if os < dt % nb then 1 else 0))

/-- All subsets (`source/libtomo/recon/osem.c:99-103`). -/
def subsets (dt nb : Nat) : List (Nat × Nat) := subsetsFrom dt nb nb 0 0

/-- `p = (num_block == 1) ? q : ind_block[q]` (`source/libtomo/recon/osem.c:113`); `none` is a
read outside `ind_block`. -/
def blockIndex (nb : Nat) (ind : List Nat) (q : Nat) : Option Nat :=
  if nb = 1 then some q else ind[q]?

/-- The projections of one subset in the order of use (`source/libtomo/recon/osem.c:111-113`). -/
def subsetProjs (nb : Nat) (ind : List Nat) (b : Nat × Nat) : Option (List Nat) :=
  ((List.range (b.2 - b.1)).map (b.1 + ·)).mapM (blockIndex nb ind)

/-- What the methods do with one ray: the factor computed from data, simulated data and
`sum_dist2`, and the amount accumulated for a segment (from the pixel value, that factor and the
length) (`source/libtomo/recon/osem.c:161-169`, `bart.c:160-168`). -/
structure Method (K : Type*) where
  ratio : K → K → K → Option K
  acc : K → K → K → K

/-- `(simdata, sum_dist, update)` (`source/libtomo/recon/osem.c:69-71`). -/
structure Acc (K : Type*) where
  sd : Mem K
  sumd : Mem K
  upd : Mem K

/-- The loop body of `osem`, `bart` and `ospml_*` for one ray
(`source/libtomo/recon/osem.c:148-170`, `bart.c:147-169`, `ospml_quad.c:147-170`). -/
def accRay (mt : Method K) (D : Dims) (s p d : Nat) (ray : Segs K) (data recon : Mem K)
    (a : Acc K) : Option (Acc K) :=
  if sumDist2 ray ≠ 0 then do
    let u ← mt.ratio (data (D.data s p d))
      (calcSimdata D s p d ray recon a.sd (D.data s p d)) (sumDist2 ray)
    some ⟨calcSimdata D s p d ray recon a.sd,
      ray.foldl (fun m e => addAt m e.1 e.2) a.sumd,
      ray.foldl (fun m e => addAt m e.1 (mt.acc (recon (e.1 + s * D.N)) u e.2)) a.upd⟩
  else some ⟨calcSimdata D s p d ray recon a.sd,
    ray.foldl (fun m e => addAt m e.1 e.2) a.sumd, a.upd⟩

/-- The loops over the projections of a subset and the detector pixels
(`source/libtomo/recon/osem.c:111-172`, `bart.c:110-171`). -/
def accBlock (mt : Method K) (D : Dims) (g : Geom K) (s : Nat) (ps : List Nat)
    (data recon : Mem K) (sd : Mem K) : Option (Acc K) :=
  ps.foldlM (fun a p => (List.range D.dx).foldlM (fun a d =>
    accRay mt D s p d (g s p d) data recon a) a) ⟨sd, zeros, zeros⟩

/-- One subset of one slice, acting on `(recon, simdata)`; `fin` is the method-specific update
of the slice (`source/libtomo/recon/osem.c:100-184`, `bart.c:99-181`, `ospml_quad.c:98-390`). -/
def osBlock (mt : Method K) (fin : Nat → Acc K → Mem K → Option (Mem K)) (D : Dims) (g : Geom K)
    (data : Mem K) (s : Nat) (st : Mem K × Mem K) (ps : List Nat) : Option (Mem K × Mem K) := do
  let a ← accBlock mt D g s ps data st.1 st.2
  let r ← fin s a st.1
  some (r, a.sd)

/-- One iteration over all slices and subsets (`source/libtomo/recon/osem.c:89-185`). -/
def osIter (mt : Method K) (fin : Nat → Acc K → Mem K → Option (Mem K)) (D : Dims) (g : Geom K)
    (data : Mem K) (blocks : List (List Nat)) (recon : Mem K) : Option (Mem K) := do
  let st ← (List.range D.dy).foldlM (fun st s =>
    blocks.foldlM (osBlock mt fin D g data s) st) (recon, zeros)
  some st.1

/-- `num_iter` iterations (`source/libtomo/recon/osem.c:87`). -/
def iterM {α : Type*} (f : α → Option α) : Nat → α → Option α
  | 0, x => some x
  | n + 1, x => do
    let y ← f x
    iterM f n y

/-- The common skeleton of `osem`, `bart`, `ospml_quad`, `ospml_hybrid`
(`source/libtomo/recon/osem.c:49-203`, `bart.c:48-200`, `ospml_quad.c:47-408`): `none` also for
`num_block == 0` (integer division by zero) and reads outside `ind_block`.  The build has
`NDEBUG`; see `subsets_last` for the assertion of line 104. -/
def osRun (mt : Method K) (fin : Nat → Acc K → Mem K → Option (Mem K)) (D : Dims) (g : Geom K)
    (data : Mem K) (num_iter nb : Nat) (ind : List Nat) (recon : Mem K) : Option (Mem K) :=
  if D.dy = 0 ∨ D.dt = 0 ∨ D.dx = 0 then some recon
  else if nb = 0 then none
  else ((subsets D.dt nb).mapM (subsetProjs nb ind)).bind fun blocks =>
    iterM (osIter mt fin D g data blocks) num_iter recon

/-- `upd = data[ind_data] / simdata[ind_data]; update[indi[n]] += upd * dist[n]`
(`source/libtomo/recon/osem.c:164-169`). -/
def osemMethod : Method K where
  ratio := fun dat sim _ => if sim = 0 then none else some (dat / sim)
  acc := fun _ u dist => u * dist

/-- `recon[m + ind_recon] *= update[m] / sum_dist[n]` where `sum_dist[n] != 0`
(`source/libtomo/recon/osem.c:174-183`). -/
def osemFin (D : Dims) (s : Nat) (a : Acc K) (recon : Mem K) : Option (Mem K) :=
  some ((List.range D.N).foldl (fun r n =>
    if a.sumd n ≠ 0 then update r (n + s * D.N) (r (n + s * D.N) * (a.upd n / a.sumd n)) else r) recon)

/-- `osem` (`source/libtomo/recon/osem.c:49-203`). -/
def osem (D : Dims) (g : Geom K) (data : Mem K) (num_iter nb : Nat) (ind : List Nat)
    (recon : Mem K) : Option (Mem K) :=
  osRun osemMethod (osemFin D) D g data num_iter nb ind recon

/-- `c_mlem` without acceleration calls `osem` with `ind_block = arange(1)`, `num_block = 1`
(`source/tomopy/util/extern/recon.py:261-291`). -/
def mlem (D : Dims) (g : Geom K) (data : Mem K) (num_iter : Nat) (recon : Mem K) : Option (Mem K) :=
  osem D g data num_iter 1 [0] recon

/-- `upd = (data - simdata) / sum_dist2` (`source/libtomo/recon/bart.c:163-168`). -/
def bartMethod : Method K where
  ratio := fun dat sim s2 => some ((dat - sim) / s2)
  acc := fun _ u dist => u * dist

/-- `recon[n + ind_recon] += update[n] / sum_dist[n]` where `sum_dist[n] != 0`
(`source/libtomo/recon/bart.c:173-180`). -/
def bartFin (D : Dims) (s : Nat) (a : Acc K) (recon : Mem K) : Option (Mem K) :=
  some ((List.range D.N).foldl (fun r n =>
    if a.sumd n ≠ 0 then addAt r (n + s * D.N) (a.upd n / a.sumd n) else r) recon)

/-- `bart` (`source/libtomo/recon/bart.c:48-200`). -/
def bart (D : Dims) (g : Geom K) (data : Mem K) (num_iter nb : Nat) (ind : List Nat)
    (recon : Mem K) : Option (Mem K) :=
  osRun bartMethod (bartFin D) D g data num_iter nb ind recon

/-- `c_sirt` without acceleration calls `bart` with `ind_block = arange(1)`, `num_block = 1`
(`source/tomopy/util/extern/recon.py:426-457`). -/
def sirt (D : Dims) (g : Geom K) (data : Mem K) (num_iter : Nat) (recon : Mem K) : Option (Mem K) :=
  bart D g data num_iter 1 [0] recon

/-! ## Gradient methods -/

/-- The loops `for s, for iy, for ix` over `recon[s * ngridx * ngridy + iy * ngridx + ix]`
(`source/libtomo/recon/grad.c:96-102`), applying `f s` to every element. -/
def forPix (dy ngx ngy : Nat) (f : Nat → Nat → K → K) (m : Mem K) : Mem K :=
  (List.range dy).foldl (fun m s => (List.range ngy).foldl (fun m iy =>
    (List.range ngx).foldl (fun m ix => update m (s * (ngx * ngy) + iy * ngx + ix)
      (f s (s * (ngx * ngy) + iy * ngx + ix) (m (s * (ngx * ngy) + iy * ngx + ix)))) m) m) m

/-- One ray of the gradient computation (`source/libtomo/recon/grad.c:158-182`) on
`(simdata, grad)`.  Simplification: `prox1` is used only at the index just written, `sum_dist` not
at all; both arrays are left out. -/
def gradRay (D : Dims) (s p d : Nat) (ray : Segs K) (data recon : Mem K) (r : K)
    (st : Mem K × Mem K) : Mem K × Mem K :=
  let sd := calcSimdata D s p d ray recon st.1
  (sd, if sumDist2 ray ≠ 0 then
      spread D s ray (2 * r * (sd (D.data s p d) * r - data (D.data s p d))) st.2 else st.2)

/-- The gradient (`source/libtomo/recon/grad.c:111-185`). -/
def gradient (D : Dims) (g : Geom K) (data recon : Mem K) (r : K) : Mem K :=
  ((List.range D.dy).foldl (fun st s => (List.range D.dt).foldl (fun st p =>
    (List.range D.dx).foldl (fun st d => gradRay D s p d (g s p d) data recon r st) st) st)
    (zeros, zeros)).2

/-- A sum over the pixels of a slice in the loop order of `source/libtomo/recon/grad.c:201-213`. -/
def sumPix (ngx ngy s : Nat) (f : Nat → K) : K :=
  (List.range ngy).foldl (fun a iy => (List.range ngx).foldl (fun a ix =>
    a + f (s * (ngx * ngy) + iy * ngx + ix)) a) 0

/-- The step of slice `s` in iteration `i` (`source/libtomo/recon/grad.c:188-219`); `none` is the
division by zero of line 214. -/
def gradStep (ngx ngy : Nat) (reg0 : K) (i : Nat) (gr gr0 recon recon0 : Mem K) (s : Nat) :
    Option K :=
  if reg0 < 0 then
    if i = 0 then some (1 / 1000)
    else
      if sumPix ngx ngy s (fun x => (gr x - gr0 x) * (gr x - gr0 x)) = 0 then none
      else some (sumPix ngx ngy s (fun x => (recon x - recon0 x) * (gr x - gr0 x)) /
        sumPix ngx ngy s (fun x => (gr x - gr0 x) * (gr x - gr0 x)))
  else some reg0

/-- `(recon, grad0, recon0)` of the gradient methods (`source/libtomo/recon/grad.c:104-106`). -/
structure GradSt (K : Type*) where
  recon : Mem K
  gr0 : Mem K
  recon0 : Mem K

/-- One iteration (`source/libtomo/recon/grad.c:109-231`, `tikh.c:109-238`); `extra recon grad` is
what `tikh` adds to the gradient. -/
def gradIter (extra : Mem K → Mem K → Mem K) (D : Dims) (ngx ngy : Nat) (g : Geom K)
    (data : Mem K) (r reg0 : K) (i : Nat) (st : GradSt K) : Option (GradSt K) :=
  let gr := extra st.recon (gradient D g data st.recon r)
  if ∀ s < D.dy, (gradStep ngx ngy reg0 i gr st.gr0 st.recon st.recon0 s).isSome then
    some ⟨forPix D.dy ngx ngy (fun s x v => v -
      ((gradStep ngx ngy reg0 i gr st.gr0 st.recon st.recon0 s).getD 0) * gr x) st.recon,
      gr, st.recon⟩
  else none

/-- Iterations `i, ..., i + n - 1` (`source/libtomo/recon/grad.c:109`). -/
def gradIters (extra : Mem K → Mem K → Mem K) (D : Dims) (ngx ngy : Nat) (g : Geom K)
    (data : Mem K) (r reg0 : K) : (n i : Nat) → GradSt K → Option (GradSt K)
  | 0, _, st => some st
  | n + 1, i, st =>
    (gradIter extra D ngx ngy g data r reg0 i st).bind
      (gradIters extra D ngx ngy g data r reg0 n (i + 1))

/-- The common part of `grad` and `tikh` (`source/libtomo/recon/grad.c:92-241`): scaling of the
initial guess, iterations, scaling back.  `r` is `1 / sqrt(dx * dt / 2)`, see `gradScale`. -/
def gradRun (extra : Mem K → Mem K → Mem K) (D : Dims) (ngx ngy : Nat) (g : Geom K)
    (data : Mem K) (num_iter : Nat) (r reg0 : K) (recon : Mem K) : Option (Mem K) :=
  if D.dy = 0 ∨ D.dt = 0 ∨ D.dx = 0 then some recon else
  (gradIters extra D ngx ngy g data r reg0 num_iter 0
    ⟨forPix D.dy ngx ngy (fun _ _ v => v / r) recon, zeros,
      forPix D.dy ngx ngy (fun _ _ v => v / r) recon⟩).map
    fun st => forPix D.dy ngx ngy (fun _ _ v => v * r) st.recon

/-- `grad` (`source/libtomo/recon/grad.c:48-260`). -/
def grad (D : Dims) (ngx ngy : Nat) (g : Geom K) (data : Mem K) (num_iter : Nat) (r reg0 : K)
    (recon : Mem K) : Option (Mem K) :=
  gradRun (fun _ gr => gr) D ngx ngy g data num_iter r reg0 recon

/-- `tikh` (`source/libtomo/recon/tikh.c:48-266`): the term of lines 188-195 is added to the
gradient. -/
def tikh (D : Dims) (ngx ngy : Nat) (g : Geom K) (data : Mem K) (num_iter : Nat) (r reg0 reg1 : K)
    (regData recon : Mem K) : Option (Mem K) :=
  gradRun (fun rc gr => forPix D.dy ngx ngy (fun _ x v => v + 2 * reg1 * (rc x - regData x)) gr)
    D ngx ngy g data num_iter r reg0 recon

/-- `r = 1 / sqrt(dx * dt / 2.0)` (`source/libtomo/recon/grad.c:92`). -/
noncomputable def gradScale (D : Dims) : ℝ := 1 / Real.sqrt ((D.dx : ℝ) * D.dt / 2)

/-! ## Vector tomography -/

/-- The address of pixel `n` (`indy + indx * ngridy`) of slice `s` in the volumes for the three
axes (`source/libtomo/recon/utils.c:403-427`, `vector.c:174-177,336-339,442-445`). -/
def vecAddr (ngx ngy axis s n : Nat) : Nat :=
  if axis = 0 then n + s * ngx * ngy
  else if axis = 1 then s + n / ngy * ngy + n % ngy * ngx * ngy
  else n / ngy + s * ngy + n % ngy * ngx * ngy

/-- The two components that belong to an axis (`source/libtomo/recon/utils.c:403-427`). -/
def vecComp (axis : Nat) : Nat × Nat :=
  if axis = 0 then (0, 1) else if axis = 1 then (1, 2) else (0, 2)

/-- `calc_simdata2` (axis 0) and `calc_simdata3` (`source/libtomo/recon/utils.c:372-429`);
nothing is added for other axes.  `R c` is the volume of component `c`. -/
def vecSimdata (D : Dims) (ngx ngy axis s p d : Nat) (ray : Segs K) (v : K × K)
    (R : Nat → Mem K) (sd : Mem K) : Mem K :=
  if axis ≤ 2 then
    ray.foldl (fun sd e => addAt sd (D.data s p d)
      ((R (vecComp axis).1 (vecAddr ngx ngy axis s e.1) * v.1 +
        R (vecComp axis).2 (vecAddr ngx ngy axis s e.1) * v.2) * e.2)) sd
  else sd

/-- `(simdata, sum_dist, update1, update2)` (`source/libtomo/recon/vector.c:86-96`). -/
structure VAcc (K : Type*) where
  sd : Mem K
  sumd : Mem K
  u1 : Mem K
  u2 : Mem K

/-- One ray (`source/libtomo/recon/vector.c:143-167`). -/
def vecRay (D : Dims) (ngx ngy axis s p d : Nat) (ray : Segs K) (v : K × K) (data : Mem K)
    (R : Nat → Mem K) (a : VAcc K) : VAcc K :=
  let sd := vecSimdata D ngx ngy axis s p d ray v R a.sd
  let u := (data (D.data s p d) - sd (D.data s p d)) / sumDist2 ray
  ⟨sd, ray.foldl (fun m e => addAt m e.1 e.2) a.sumd,
    if sumDist2 ray ≠ 0 then ray.foldl (fun m e => addAt m e.1 (u * e.2 * v.1)) a.u1 else a.u1,
    if sumDist2 ray ≠ 0 then ray.foldl (fun m e => addAt m e.1 (u * e.2 * v.2)) a.u2 else a.u2⟩

/-- All rays of a slice (`source/libtomo/recon/vector.c:99-169`). -/
def vecAcc (D : Dims) (ngx ngy axis s : Nat) (g : Geom K) (v : Nat → K × K) (data : Mem K)
    (R : Nat → Mem K) (sd : Mem K) : VAcc K :=
  (List.range D.dt).foldl (fun a p => (List.range D.dx).foldl (fun a d =>
    vecRay D ngx ngy axis s p d (g s p d) (v p) data R a) a) ⟨sd, zeros, zeros, zeros⟩

/-- `R[c][i] += x` (`source/libtomo/recon/vector.c:174`). -/
def vecAdd (R : Nat → Mem K) (c i : Nat) (x : K) : Nat → Mem K := update R c (addAt (R c) i x)

/-- The update of one pixel (`source/libtomo/recon/vector.c:174-177` without and 334-340, 440-446
with the test for zero). -/
def vecPixel (ngx ngy axis s : Nat) (guard : Bool) (a : VAcc K) (R : Nat → Mem K) (n : Nat) :
    Option (Nat → Mem K) :=
  if a.sumd n = 0 then (if guard then some R else none)
  else some (vecAdd (vecAdd R (vecComp axis).1 (vecAddr ngx ngy axis s n) (a.u1 n / a.sumd n))
    (vecComp axis).2 (vecAddr ngx ngy axis s n) (a.u2 n / a.sumd n))

/-- One slice (`source/libtomo/recon/vector.c:90-183`): forward model along `raxis`, update of the
components and addresses of `waxis`.  The loops over `m`, `n` visit `n + m * ngridy`. -/
def vecSlice (D : Dims) (ngx ngy raxis waxis : Nat) (guard : Bool) (g : Geom K)
    (v : Nat → K × K) (data : Mem K) (st : (Nat → Mem K) × Mem K) (s : Nat) :
    Option ((Nat → Mem K) × Mem K) :=
  ((List.range (ngx * ngy)).foldlM (vecPixel ngx ngy waxis s guard
    (vecAcc D ngx ngy raxis s g v data st.1 st.2)) st.1).map
      fun R => (R, (vecAcc D ngx ngy raxis s g v data st.1 st.2).sd)

/-- One pass over all slices with a fresh `simdata` (`source/libtomo/recon/vector.c:84-186`). -/
def vecPass (D : Dims) (ngx ngy raxis waxis : Nat) (guard : Bool) (g : Geom K)
    (v : Nat → K × K) (data : Mem K) (R : Nat → Mem K) : Option (Nat → Mem K) :=
  ((List.range D.dy).foldlM (vecSlice D ngx ngy raxis waxis guard g v data) (R, zeros)).map Prod.fst

/-- `vector` (`source/libtomo/recon/vector.c:48-202`): no test for unseen pixels. -/
def vector (D : Dims) (ngx ngy : Nat) (g : Geom K) (v : Nat → K × K) (data : Mem K)
    (num_iter : Nat) (R : Nat → Mem K) : Option (Nat → Mem K) :=
  iterM (vecPass D ngx ngy 0 0 false g v data) num_iter R

/-- What one data set contributes: geometry and directions (from `theta`, `center`), data
(the arguments `data1`, `center1`, `theta1` etc. of `source/libtomo/recon/vector.c:204-208`). -/
structure VecSet (K : Type*) where
  g : Geom K
  v : Nat → K × K
  data : Mem K

/-- `vector2` (`source/libtomo/recon/vector.c:204-471`): both passes use `center1` and `theta1`
(lines 250, 263, 356, 369); the update addresses are those of axes 1 and 2, whatever the
arguments (lines 336-339, 442-445). -/
def vector2 (D : Dims) (ngx ngy : Nat) (t1 t2 : VecSet K) (num_iter axis1 axis2 : Nat)
    (R : Nat → Mem K) : Option (Nat → Mem K) :=
  iterM (fun R => (vecPass D ngx ngy axis1 1 true t1.g t1.v t1.data R).bind
    (vecPass D ngx ngy axis2 2 true t1.g t1.v t2.data)) num_iter R

/-- `vector3` (`source/libtomo/recon/vector.c:473-847`): all passes use `center1` and `theta1`
(lines 520, 533, 626, 639, 732, 745); update addresses of axes 0, 1, 2. -/
def vector3 (D : Dims) (ngx ngy : Nat) (t1 t2 t3 : VecSet K) (num_iter axis1 axis2 axis3 : Nat)
    (R : Nat → Mem K) : Option (Nat → Mem K) :=
  iterM (fun R => (vecPass D ngx ngy axis1 0 true t1.g t1.v t1.data R).bind fun R =>
    (vecPass D ngx ngy axis2 1 true t1.g t1.v t2.data R).bind
      (vecPass D ngx ngy axis3 2 true t1.g t1.v t3.data)) num_iter R

/-- `(vx, vy)` of a ray (`source/libtomo/recon/vector.c:115-128`). -/
noncomputable def vecDir (ngx ngy : Nat) (yi sn cs : ℝ) : ℝ × ℝ :=
  let xi : ℝ := -(ngx : ℝ) - ngy
  let srcx := xi * cs - yi * sn
  let srcy := xi * sn + yi * cs
  let detx := -xi * cs - yi * sn
  let dety := -xi * sn + yi * cs
  let dv := Real.sqrt ((srcx - detx) ^ 2 + (srcy - dety) ^ 2)
  ((srcx - detx) / dv, (srcy - dety) / dv)

/-! ## Connection with the tracer -/

/-- The segments of the tracer as natural-number indices
(`source/libtomo/recon/fbp.c:80-117`, `osem.c:95-146`); `Ray.rayTrace_safe` shows that the tracer
always returns a list and that no index is negative. -/
noncomputable def tracerGeom (rx rz dx : Nat) (center theta : Nat → ℝ) : Geom ℝ := fun s p d =>
  ((Ray.rayTrace (Ray.capsRecon rx rz) rx rz dx (center s) (theta p) d).getD []).map
    fun e => (e.1.toNat, e.2)

end Tomopy.Iter
