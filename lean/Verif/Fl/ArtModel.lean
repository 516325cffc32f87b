import Verif.Fl.OsemModel
import Verif.Fl.NormModel

/-!
# `project`, `fbp`, `art` and `bart` in `float` arithmetic

As in `OsemModel` the lengths of the segments are given and finite, every operation is rounded, and
the compiler may fuse the multiply-adds.
-/

set_option linter.unusedSectionVars false

namespace Tomopy.Fl

open Function (update)
open Tomopy.Iter (Dims Segs Geom subsets subsetProjs)

/-- `project` (`source/libtomo/recon/project.c:51-138`): the centre of the first slice is used for
all slices. -/
def projectM (fused : Bool) (D : Dims) (g : Geom ℚ) (obj data : MemF) : MemF :=
  if D.dy = 0 ∨ D.dt = 0 ∨ D.dx = 0 then data else
  (List.range D.dt).foldl (fun m p => (List.range D.dx).foldl (fun m d =>
    (List.range D.dy).foldl (fun m s => simF fused D s p d (g 0 p d) obj m) m) m) data

/-- `recon[indi[n] + ind_recon] += v * dist[n]` for all segments
(`source/libtomo/recon/fbp.c:122-125`, `art.c:146-149`). -/
def spreadF (fused : Bool) (D : Dims) (s : Nat) (ray : Segs ℚ) (v : F32) (recon : MemF) : MemF :=
  ray.foldl (fun r e => update r (e.1 + s * D.N) (F32.mac fused v (.fin e.2) (r (e.1 + s * D.N)))) recon

/-- `fbp` (`source/libtomo/recon/fbp.c:48-142`). -/
def fbpF (fused : Bool) (D : Dims) (g : Geom ℚ) (data recon : MemF) : MemF :=
  if D.dy = 0 ∨ D.dt = 0 ∨ D.dx = 0 then recon else
  (List.range D.dy).foldl (fun m s => (List.range D.dt).foldl (fun m p =>
    (List.range D.dx).foldl (fun m d =>
      spreadF fused D s (g s p d) (data (D.data s p d)) m) m) m) recon

/-- The body of the innermost loop of `art` (`source/libtomo/recon/art.c:132-150`) for one ray and
one slice, acting on `(recon, simdata)`. -/
def artStepF (k : OMode) (D : Dims) (g : Geom ℚ) (data : MemF) (st : MemF × MemF) (p d s : Nat) :
    MemF × MemF :=
  if sumSqF k.sq (g 0 p d) ≠ .fin 0 then
    (spreadF k.acc D s (g 0 p d)
      (F32.div (F32.sub (data (D.data s p d)) (simF k.sim D s p d (g 0 p d) st.1 st.2 (D.data s p d)))
        (sumSqF k.sq (g 0 p d))) st.1,
     simF k.sim D s p d (g 0 p d) st.1 st.2)
  else st

/-- One iteration of `art` (`source/libtomo/recon/art.c:83-153`). -/
def artIterF (k : OMode) (D : Dims) (g : Geom ℚ) (data recon : MemF) : MemF :=
  ((List.range D.dt).foldl (fun st p => (List.range D.dx).foldl (fun st d =>
    (List.range D.dy).foldl (fun st s => artStepF k D g data st p d s) st) st)
    (recon, fun _ => .fin 0)).1

/-- `art` (`source/libtomo/recon/art.c:48-168`). -/
def artF (k : OMode) (D : Dims) (g : Geom ℚ) (data : MemF) (num_iter : Nat) (recon : MemF) : MemF :=
  if D.dy = 0 ∨ D.dt = 0 ∨ D.dx = 0 then recon else (artIterF k D g data)^[num_iter] recon

/-- The loop body of `bart` for one ray (`source/libtomo/recon/bart.c:147-170`). -/
def bartRayF (k : OMode) (D : Dims) (s p d : Nat) (ray : Segs ℚ) (data recon : MemF) (a : AccF) :
    AccF where
  sd := simF k.sim D s p d ray recon a.sd
  sumd := addLenF ray a.sumd
  upd := if sumSqF k.sq ray ≠ .fin 0 then
      addUpdF k.acc ray (F32.div (F32.sub (data (D.data s p d))
        (simF k.sim D s p d ray recon a.sd (D.data s p d))) (sumSqF k.sq ray)) a.upd
    else a.upd

/-- The loops over the projections of a subset and the detector pixels
(`source/libtomo/recon/bart.c:105-171`); `sum_dist` and `update` are zero before. -/
def bartAccF (k : OMode) (D : Dims) (g : Geom ℚ) (s : Nat) (ps : List Nat) (data recon sd : MemF) :
    AccF :=
  ps.foldl (fun a p => (List.range D.dx).foldl (fun a d =>
    bartRayF k D s p d (g s p d) data recon a) a) ⟨sd, fun _ => .fin 0, fun _ => .fin 0⟩

/-- `recon[n + ind_recon] += update[n] / sum_dist[n]` where `sum_dist[n] != 0`
(`source/libtomo/recon/bart.c:173-180`). -/
def bartFinF (D : Dims) (s : Nat) (a : AccF) (recon : MemF) : MemF :=
  (List.range D.N).foldl (fun r n => if a.sumd n ≠ .fin 0 then
    update r (n + s * D.N) (F32.add (r (n + s * D.N)) (F32.div (a.upd n) (a.sumd n))) else r) recon

/-- One subset of one slice, acting on `(recon, simdata)` (`source/libtomo/recon/bart.c:99-181`). -/
def bartBlockF (k : OMode) (D : Dims) (g : Geom ℚ) (data : MemF) (s : Nat) (st : MemF × MemF)
    (ps : List Nat) : MemF × MemF :=
  (bartFinF D s (bartAccF k D g s ps data st.1 st.2) st.1, (bartAccF k D g s ps data st.1 st.2).sd)

/-- One iteration (`source/libtomo/recon/bart.c:86-183`). -/
def bartIterF (k : OMode) (D : Dims) (g : Geom ℚ) (data : MemF) (blocks : List (List Nat))
    (recon : MemF) : MemF :=
  ((List.range D.dy).foldl (fun st s => blocks.foldl (bartBlockF k D g data s) st)
    (recon, fun _ => .fin 0)).1

/-- `bart` (`source/libtomo/recon/bart.c:48-200`): `none` is a division by `num_block == 0` or a read
outside `ind_block`. -/
def bartF (k : OMode) (D : Dims) (g : Geom ℚ) (data : MemF) (num_iter nb : Nat) (ind : List Nat)
    (recon : MemF) : Option MemF :=
  if D.dy = 0 ∨ D.dt = 0 ∨ D.dx = 0 then some recon
  else if nb = 0 then none
  else ((subsets D.dt nb).mapM (subsetProjs nb ind)).map fun blocks =>
    (bartIterF k D g data blocks)^[num_iter] recon

/-- `c_sirt` without acceleration (`source/tomopy/util/extern/recon.py:426-457`). -/
def sirtF (k : OMode) (D : Dims) (g : Geom ℚ) (data : MemF) (num_iter : Nat) (recon : MemF) :
    Option MemF := bartF k D g data num_iter 1 [0] recon

end Tomopy.Fl
