import Verif.Iter.Model

/-!
# Penalised maximum likelihood: `ospml_quad`, `ospml_hybrid`
-/

namespace Tomopy.Iter

open Function (update)

/-- A neighbour in the loops of the penalty: row offset, column offset (the index is
`ind1 + dn * ngridy + dm`) and weight `wg[q]` (`source/libtomo/recon/ospml_quad.c:173-200`). -/
abbrev Nb := Int × Int × ℝ

/-- The pixels `ind0 = m + n * ngridy` of a region with its neighbour list
(`source/libtomo/recon/ospml_quad.c:186-208` and the blocks after it). -/
def region (ngy : Nat) (rows cols : List Nat) (nbs : List Nb) : List (Nat × List Nb) :=
  rows.flatMap fun n => cols.map fun m => (m + n * ngy, nbs)

/-- `1, ..., n - 2` (`source/libtomo/recon/ospml_quad.c:186`). -/
def innerRange (n : Nat) : List Nat := List.range' 1 (n - 2)

/-- Weights of the inner region: straight, diagonal (`source/libtomo/recon/ospml_quad.c:174-182`). -/
noncomputable def wInner : ℝ × ℝ :=
  (1 / (4 + 4 / Real.sqrt 2), 1 / Real.sqrt 2 / (4 + 4 / Real.sqrt 2))

/-- Weights of the edges (`source/libtomo/recon/ospml_quad.c:212-217`). -/
noncomputable def wEdge : ℝ × ℝ :=
  (1 / (3 + 2 / Real.sqrt 2), 1 / Real.sqrt 2 / (3 + 2 / Real.sqrt 2))

/-- Weights of the corners (`source/libtomo/recon/ospml_quad.c:300-303`). -/
noncomputable def wCorner : ℝ × ℝ :=
  (1 / (2 + 1 / Real.sqrt 2), 1 / Real.sqrt 2 / (2 + 1 / Real.sqrt 2))

/-- All pixels of the penalty loops in order (`source/libtomo/recon/ospml_quad.c:185-365`):
inner, top, bottom, left, right, and the corners top-left, top-right, bottom-left, bottom-right. -/
noncomputable def penTasks (ngx ngy : Nat) : List (Nat × List Nb) :=
  region ngy (innerRange ngx) (innerRange ngy)
    [(0, 1, wInner.1), (0, -1, wInner.1), (1, 0, wInner.1), (-1, 0, wInner.1),
     (1, 1, wInner.2), (1, -1, wInner.2), (-1, 1, wInner.2), (-1, -1, wInner.2)] ++
  region ngy [0] (innerRange ngy)
    [(0, 1, wEdge.1), (0, -1, wEdge.1), (1, 0, wEdge.1), (1, 1, wEdge.2), (1, -1, wEdge.2)] ++
  region ngy [ngx - 1] (innerRange ngy)
    [(0, 1, wEdge.1), (0, -1, wEdge.1), (-1, 0, wEdge.1), (-1, 1, wEdge.2), (-1, -1, wEdge.2)] ++
  region ngy (innerRange ngx) [0]
    [(0, 1, wEdge.1), (1, 0, wEdge.1), (-1, 0, wEdge.1), (1, 1, wEdge.2), (-1, 1, wEdge.2)] ++
  region ngy (innerRange ngx) [ngy - 1]
    [(0, -1, wEdge.1), (1, 0, wEdge.1), (-1, 0, wEdge.1), (1, -1, wEdge.2), (-1, -1, wEdge.2)] ++
  region ngy [0] [0] [(0, 1, wCorner.1), (1, 0, wCorner.1), (1, 1, wCorner.2)] ++
  region ngy [0] [ngy - 1] [(0, -1, wCorner.1), (1, 0, wCorner.1), (1, -1, wCorner.2)] ++
  region ngy [ngx - 1] [0] [(0, 1, wCorner.1), (-1, 0, wCorner.1), (-1, 1, wCorner.2)] ++
  region ngy [ngx - 1] [ngy - 1]
    [(0, -1, wCorner.1), (-1, 0, wCorner.1), (-1, -1, wCorner.2)]

/-- `gammag[q]` of `ospml_hybrid` for the difference `rg` (`source/libtomo/recon/ospml_hybrid.c:206`);
`reg_pars[1] = 0` gives an infinite quotient (so 0) or, for equal pixels, NaN. -/
noncomputable def gammaHybrid (delta rg : ℝ) : Option ℝ :=
  if delta = 0 then (if rg = 0 then none else some 0) else some (1 / (1 + |rg / delta|))

/-- `ospml_quad` has no such factor (`source/libtomo/recon/ospml_quad.c:205`). -/
def gammaQuad (_ : ℝ) : Option ℝ := some 1

/-- `F[ind0] += 2 * reg_pars[0] * wg[q] * gammag[q]; G[ind0] -= ... * mg[q]` for one neighbour
(`source/libtomo/recon/ospml_quad.c:204-206`, `ospml_hybrid.c:204-208`); `none` is a read outside
the `size` elements of `recon`. -/
noncomputable def penStep (gam : ℝ → Option ℝ) (beta : ℝ) (ngy size base : Nat) (recon : Mem ℝ)
    (ind0 : Nat) (FG : Mem ℝ × Mem ℝ) (nb : Nb) : Option (Mem ℝ × Mem ℝ) :=
  if 0 ≤ ((ind0 + base : Nat) : Int) + nb.1 * ngy + nb.2.1 ∧
      ((ind0 + base : Nat) : Int) + nb.1 * ngy + nb.2.1 < size ∧ ind0 + base < size then
    (gam (recon (ind0 + base) -
      recon (((ind0 + base : Nat) : Int) + nb.1 * ngy + nb.2.1).toNat)).map fun ga =>
    (addAt FG.1 ind0 (2 * beta * nb.2.2 * ga),
     addAt FG.2 ind0 (-(2 * beta * nb.2.2 * ga * (recon (ind0 + base) +
       recon (((ind0 + base : Nat) : Int) + nb.1 * ngy + nb.2.1).toNat))))
  else none

/-- All neighbours of one pixel (`source/libtomo/recon/ospml_quad.c:202-207`). -/
noncomputable def penTask (gam : ℝ → Option ℝ) (beta : ℝ) (ngy size base : Nat) (recon : Mem ℝ)
    (FG : Mem ℝ × Mem ℝ) (t : Nat × List Nb) : Option (Mem ℝ × Mem ℝ) :=
  t.2.foldlM (penStep gam beta ngy size base recon t.1) FG

/-- `E[indi[n]] -= recon[indi[n] + ind_recon] * upd * dist[n]` with `upd = data / simdata`
(`source/libtomo/recon/ospml_quad.c:160-169`). -/
noncomputable def pmlMethod : Method ℝ where
  ratio := fun dat sim _ => if sim = 0 then none else some (dat / sim)
  acc := fun pix u dist => -(pix * u * dist)

/-- The pixel update (`source/libtomo/recon/ospml_quad.c:374-386`); `none` is the square root of
a negative number. `E`, `F`, `G` as in the code. -/
noncomputable def pmlPixel (s N : Nat) (E F G : Mem ℝ) (r : Mem ℝ) (q : Nat) : Option (Mem ℝ) :=
  if F q ≠ 0 then
    if G q * G q - 8 * E q * F q < 0 then none
    else some (update r (q + s * N)
      ((-G q + Real.sqrt (G q * G q - 8 * E q * F q)) / (4 * F q)))
  else some r

/-- The end of a subset (`source/libtomo/recon/ospml_quad.c:173-386`): penalty, `G += sum_dist`,
update of the slice.  `a.upd` is `E`. -/
noncomputable def pmlFin (gam : ℝ → Option ℝ) (beta : ℝ) (D : Dims) (ngx ngy : Nat) (s : Nat)
    (a : Acc ℝ) (recon : Mem ℝ) : Option (Mem ℝ) :=
  ((penTasks ngx ngy).foldlM (penTask gam beta ngy (D.dy * D.N) (s * D.N) recon) (zeros, zeros)).bind
    fun FG => (List.range D.N).foldlM
      (pmlPixel s D.N a.upd FG.1 (fun n => FG.2 n + a.sumd n)) recon

/-- `ospml_quad` and `ospml_hybrid` (`source/libtomo/recon/ospml_quad.c:47-408`,
`ospml_hybrid.c:47-426`) with the factor function `gam`. -/
noncomputable def ospml (gam : ℝ → Option ℝ) (beta : ℝ) (D : Dims) (ngx ngy : Nat) (g : Geom ℝ)
    (data : Mem ℝ) (num_iter nb : Nat) (ind : List Nat) (recon : Mem ℝ) : Option (Mem ℝ) :=
  osRun pmlMethod (pmlFin gam beta D ngx ngy) D g data num_iter nb ind recon

/-- `c_pml_quad`, `c_pml_hybrid` call `ospml_*` with `ind_block = arange(1)`, `num_block = 1`
(`source/tomopy/util/extern/recon.py:368-425`). -/
noncomputable def pml (gam : ℝ → Option ℝ) (beta : ℝ) (D : Dims) (ngx ngy : Nat) (g : Geom ℝ)
    (data : Mem ℝ) (num_iter : Nat) (recon : Mem ℝ) : Option (Mem ℝ) :=
  ospml gam beta D ngx ngy g data num_iter 1 [0] recon

end Tomopy.Iter
