import Verif.Iter.Model

/-!
# Total variation: `tv`
-/

namespace Tomopy.Iter

open Function (update)

/-- The loops `for iy, for ix` over `m[ind_recon + iy * ngridx + ix]`
(`source/libtomo/recon/tv.c:107-109, 223-253`), applying `f iy ix`. -/
def gridLoop {K : Type*} (base ngx ngy : Nat) (f : Nat → Nat → K → K) (m : Mem K) : Mem K :=
  (List.range ngy).foldl (fun m iy => (List.range ngx).foldl (fun m ix =>
    update m (base + iy * ngx + ix) (f iy ix (m (base + iy * ngx + ix)))) m) m

/-- `prox0 += c * grad(recon)` (`source/libtomo/recon/tv.c:133-142`) on `(prox0x, prox0y)`. -/
noncomputable def tvGrad (c : ℝ) (base ngx ngy : Nat) (recon : Mem ℝ) (q : Mem ℝ × Mem ℝ) :
    Mem ℝ × Mem ℝ :=
  (List.range (ngy - 1)).foldl (fun q iy => (List.range (ngx - 1)).foldl (fun q ix =>
    (addAt q.1 (base + iy * ngx + ix)
      (c * (recon (base + iy * ngx + ix + 1) - recon (base + iy * ngx + ix))),
     addAt q.2 (base + iy * ngx + ix)
      (c * (recon (base + (iy + 1) * ngx + ix) - recon (base + iy * ngx + ix))))) q) q

/-- `prox0 /= max(1, |prox0| / lambda)` at one pixel (`source/libtomo/recon/tv.c:146-154`). With
`lambda = 0` the quotient is infinite (result 0) or, for `prox0 = 0`, NaN (`none`). -/
noncomputable def tvProj (lam : ℝ) (q : Mem ℝ × Mem ℝ) (i : Nat) : Option (Mem ℝ × Mem ℝ) :=
  if lam = 0 then
    if q.1 i * q.1 i + q.2 i * q.2 i = 0 then none else some (update q.1 i 0, update q.2 i 0)
  else
    let u := Real.sqrt (q.1 i * q.1 i + q.2 i * q.2 i) / lam
    let u := if u < 1 then 1 else u
    some (update q.1 i (q.1 i / u), update q.2 i (q.2 i / u))

/-- The loops of lines 143-155 (`source/libtomo/recon/tv.c:143-155`). -/
noncomputable def tvProjLoop (lam : ℝ) (base ngx ngy : Nat) (q : Mem ℝ × Mem ℝ) :
    Option (Mem ℝ × Mem ℝ) :=
  (List.range (ngy - 1)).foldlM (fun q iy => (List.range (ngx - 1)).foldlM (fun q ix =>
    tvProj lam q (base + iy * ngx + ix)) q) q

/-- `(simdata, prox1, adjdata)` (`source/libtomo/recon/tv.c:70-77`). -/
structure TvAcc where
  sd : Mem ℝ
  p1 : Mem ℝ
  adj : Mem ℝ

/-- One ray (`source/libtomo/recon/tv.c:195-217`).  Simplification: `sum_dist` is accumulated but
never used and is left out. -/
noncomputable def tvRay (c r : ℝ) (D : Dims) (s p d : Nat) (ray : Segs ℝ) (data recon : Mem ℝ)
    (a : TvAcc) : TvAcc :=
  let sd := calcSimdata D s p d ray recon a.sd
  let p1 := update a.p1 (D.data s p d)
    ((a.p1 (D.data s p d) + c * sd (D.data s p d) * r - c * data (D.data s p d)) / (1 + c))
  ⟨sd, p1, if sumDist2 ray ≠ 0 then spread D s ray (r * p1 (D.data s p d)) a.adj else a.adj⟩

/-- The divergence of `prox0` at `(iy, ix)` as used in the backward step
(`source/libtomo/recon/tv.c:232-247`). -/
def tvDiv {K : Type*} [Field K] (base ngx : Nat) (px py : Mem K) (iy ix : Nat) : K :=
  (if ix = 0 then px (base + iy * ngx + ix)
    else px (base + iy * ngx + ix) - px (base + iy * ngx + ix - 1)) +
  (if iy = 0 then py (base + iy * ngx + ix)
    else py (base + iy * ngx + ix) - py (base + (iy - 1) * ngx + ix))

/-- The arrays kept between iterations (`source/libtomo/recon/tv.c:71-76`). -/
structure TvSt where
  recon : Mem ℝ
  upd : Mem ℝ
  px : Mem ℝ
  py : Mem ℝ
  acc : TvAcc

/-- One slice of one iteration (`source/libtomo/recon/tv.c:128-254`). -/
noncomputable def tvSlice (c r lam : ℝ) (D : Dims) (ngx ngy : Nat) (g : Geom ℝ) (data : Mem ℝ)
    (st : TvSt) (s : Nat) : Option TvSt :=
  (tvProjLoop lam (s * (ngx * ngy)) ngx ngy
      (tvGrad c (s * (ngx * ngy)) ngx ngy st.recon (st.px, st.py))).map fun q =>
    let a := (List.range D.dt).foldl (fun a p => (List.range D.dx).foldl (fun a d =>
      tvRay c r D s p d (g s p d) data st.recon a) a) st.acc
    let copy := (List.range (ngx * ngy)).foldl (fun m n =>
      update m (n + s * (ngx * ngy)) (st.upd (n + s * (ngx * ngy)))) st.recon
    let upd := gridLoop (s * (ngx * ngy)) ngx ngy (fun iy ix v =>
      v - c * a.adj (s * (ngx * ngy) + iy * ngx + ix) +
        c * tvDiv (s * (ngx * ngy)) ngx q.1 q.2 iy ix) st.upd
    let recon := gridLoop (s * (ngx * ngy)) ngx ngy (fun iy ix v =>
      2 * upd (s * (ngx * ngy) + iy * ngx + ix) - v) copy
    ⟨recon, upd, q.1, q.2, a⟩

/-- One iteration (`source/libtomo/recon/tv.c:119-255`). -/
noncomputable def tvIter (c r lam : ℝ) (D : Dims) (ngx ngy : Nat) (g : Geom ℝ) (data : Mem ℝ)
    (st : TvSt) : Option TvSt :=
  (List.range D.dy).foldlM (tvSlice c r lam D ngx ngy g data)
    { st with acc := ⟨zeros, st.acc.p1, zeros⟩ }

/-- `tv` (`source/libtomo/recon/tv.c:48-285`); `c = 0.35` and `r = 1 / sqrt(dx * dt / 2)` are
arguments here, see `tvC` and `gradScale`. -/
noncomputable def tvRun (c r lam : ℝ) (D : Dims) (ngx ngy : Nat) (g : Geom ℝ) (data : Mem ℝ)
    (num_iter : Nat) (recon : Mem ℝ) : Option (Mem ℝ) :=
  if D.dy = 0 ∨ D.dt = 0 ∨ D.dx = 0 then some recon else
  let rc := forPix D.dy ngx ngy (fun _ _ v => v / r) recon
  (iterM (tvIter c r lam D ngx ngy g data) num_iter
    ⟨rc, rc, zeros, zeros, ⟨zeros, zeros, zeros⟩⟩).map
    fun st => forPix D.dy ngx ngy (fun _ _ v => v * r) st.recon

/-- `c = 0.35` (`source/libtomo/recon/tv.c:101`). -/
noncomputable def tvC : ℝ := 35 / 100

/-- `tv` with its constants (`source/libtomo/recon/tv.c:48-285`), `lambda = reg_pars[0]`. -/
noncomputable def tv (lam : ℝ) (D : Dims) (ngx ngy : Nat) (g : Geom ℝ) (data : Mem ℝ)
    (num_iter : Nat) (recon : Mem ℝ) : Option (Mem ℝ) :=
  tvRun tvC (gradScale D) lam D ngx ngy g data num_iter recon

end Tomopy.Iter
