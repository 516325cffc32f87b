import Verif.Fl.Ext
import Verif.Iter.Model

/-!
# `osem` in `float` arithmetic
-/

set_option linter.unusedSectionVars false

namespace Tomopy.Fl

open Function (update)
open Tomopy.Iter (Dims Segs Geom iterM subsets subsetProjs)

/-- Which of the three multiply-adds of `osem` the compiler fuses
(`source/libtomo/recon/utils.c:367`, `osem.c:157,168`). -/
structure OMode where
  sim : Bool
  sq : Bool
  acc : Bool

/-- A flat C array of floats (`source/libtomo/recon/osem.c:49-50`). -/
abbrev MemF := Nat → F32

/-- `calc_simdata` (`source/libtomo/recon/utils.c:359-370`).  The lengths are finite. -/
def simF (fused : Bool) (D : Dims) (s p d : Nat) (ray : Segs ℚ) (model sd : MemF) : MemF :=
  ray.foldl (fun sd e => update sd (D.data s p d)
    (F32.mac fused (model (e.1 + s * D.N)) (.fin e.2) (sd (D.data s p d)))) sd

/-- `sum_dist2 += dist[n] * dist[n]` (`source/libtomo/recon/osem.c:154-157`). -/
def sumSqF (fused : Bool) (ray : Segs ℚ) : F32 :=
  ray.foldl (fun a e => F32.mac fused (.fin e.2) (.fin e.2) a) (.fin 0)

/-- `simdata`, `sum_dist`, `update` (`source/libtomo/recon/osem.c:69-71`). -/
structure AccF where
  sd : MemF
  sumd : MemF
  upd : MemF

/-- `sum_dist[indi[n]] += dist[n]` (`source/libtomo/recon/osem.c:158`). -/
def addLenF (ray : Segs ℚ) (m : MemF) : MemF :=
  ray.foldl (fun m e => update m e.1 (F32.add (m e.1) (.fin e.2))) m

/-- `update[indi[n]] += upd * dist[n]` (`source/libtomo/recon/osem.c:165-169`). -/
def addUpdF (fused : Bool) (ray : Segs ℚ) (u : F32) (m : MemF) : MemF :=
  ray.foldl (fun m e => update m e.1 (F32.mac fused u (.fin e.2) (m e.1))) m

/-- The loop body for one ray (`source/libtomo/recon/osem.c:148-171`). -/
def accRayF (k : OMode) (D : Dims) (s p d : Nat) (ray : Segs ℚ) (data recon : MemF) (a : AccF) :
    AccF where
  sd := simF k.sim D s p d ray recon a.sd
  sumd := addLenF ray a.sumd
  upd := if sumSqF k.sq ray ≠ .fin 0 then
      addUpdF k.acc ray (F32.div (data (D.data s p d))
        (simF k.sim D s p d ray recon a.sd (D.data s p d))) a.upd
    else a.upd

/-- The loops over the projections of a subset and the detector pixels
(`source/libtomo/recon/osem.c:106-172`); `sum_dist` and `update` are zero before. -/
def accBlockF (k : OMode) (D : Dims) (g : Geom ℚ) (s : Nat) (ps : List Nat) (data recon sd : MemF) :
    AccF :=
  ps.foldl (fun a p => (List.range D.dx).foldl (fun a d =>
    accRayF k D s p d (g s p d) data recon a) a) ⟨sd, fun _ => .fin 0, fun _ => .fin 0⟩

/-- `recon[m + ind_recon] *= update[m] / sum_dist[n]` where `sum_dist[n] != 0`
(`source/libtomo/recon/osem.c:174-183`). -/
def finF (D : Dims) (s : Nat) (a : AccF) (recon : MemF) : MemF :=
  (List.range D.N).foldl (fun r n => if a.sumd n ≠ .fin 0 then
    update r (n + s * D.N) (F32.mul (r (n + s * D.N)) (F32.div (a.upd n) (a.sumd n))) else r) recon

/-- One subset of one slice, acting on `(recon, simdata)`
(`source/libtomo/recon/osem.c:100-184`). -/
def osBlockF (k : OMode) (D : Dims) (g : Geom ℚ) (data : MemF) (s : Nat) (st : MemF × MemF)
    (ps : List Nat) : MemF × MemF :=
  (finF D s (accBlockF k D g s ps data st.1 st.2) st.1, (accBlockF k D g s ps data st.1 st.2).sd)

/-- One iteration (`source/libtomo/recon/osem.c:87-186`). -/
def osIterF (k : OMode) (D : Dims) (g : Geom ℚ) (data : MemF) (blocks : List (List Nat))
    (recon : MemF) : MemF :=
  ((List.range D.dy).foldl (fun st s => blocks.foldl (osBlockF k D g data s) st)
    (recon, fun _ => .fin 0)).1

/-- `osem` (`source/libtomo/recon/osem.c:49-203`): `none` is a division by `num_block == 0` or a
read outside `ind_block`. -/
def osemF (k : OMode) (D : Dims) (g : Geom ℚ) (data : MemF) (num_iter nb : Nat) (ind : List Nat)
    (recon : MemF) : Option MemF :=
  if D.dy = 0 ∨ D.dt = 0 ∨ D.dx = 0 then some recon
  else if nb = 0 then none
  else ((subsets D.dt nb).mapM (subsetProjs nb ind)).map fun blocks =>
    (osIterF k D g data blocks)^[num_iter] recon

/-- `c_mlem` without acceleration (`source/tomopy/util/extern/recon.py:261-291`). -/
def mlemF (k : OMode) (D : Dims) (g : Geom ℚ) (data : MemF) (num_iter : Nat) (recon : MemF) :
    Option MemF := osemF k D g data num_iter 1 [0] recon

end Tomopy.Fl
