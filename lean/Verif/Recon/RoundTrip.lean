import Verif.Recon.Kernels
import Verif.Sim.Turn
import Verif.Normalize.LogProps
import Verif.Iter.ConvTracer
import Verif.Iter.HitData

/-! # From an object to its projections and back (C171)

`project`, `minus_log` (for transmission data) and `recon` with `art` or `mlem` on the grid of the object. -/

set_option linter.unusedSectionVars false

namespace Tomopy.Recon

open Tomopy.Par Tomopy.Mproc Tomopy.Iter Tomopy.Sim
open Tomopy.Ray (ClearOfAxes)
open Filter Topology

/-! ## Model -/

/-- The arrays given to `_dist_recon` (`source/tomopy/recon/algorithm.py:324-329`): data in sinogram order, one
centre per slice, initial images. -/
def reconMem (tomo : Arr3 ℝ) (centers : List ℝ) (init : Nat → Mem ℝ) : Cell → Option (Mem ℝ) := fun c =>
  if c.1 = tomoB then some fun n => tomo.get c.2 (n / tomo.d2) (n % tomo.d2)
  else if c.1 = centerB then some fun _ => centers.getD c.2 0
  else if c.1 = reconB then some (init c.2) else none

/-- `recon(tomo, theta, center, sinogram_order, algorithm=..., init_recon=..., num_gridx=, num_gridy=, ncore=,
nchunk=)` for a C method (`source/tomopy/recon/algorithm.py:262-334`): `result s` is slice `s` of the returned
volume.  The checks on angles and centres are kept; `cpu` is the number of processors, `limit` the limit of
threads.  The conversion to float32 is left out. -/
def ReconRun (cpu : Nat) (run : Run ℝ) (ngx ngy : Nat) (data : Arr3 ℝ) (theta : List ℝ)
    (center : Option (List ℝ)) (sinogramOrder : Bool) (init : Nat → Mem ℝ) (ncore nchunk limit : Option Nat)
    (result : Nat → Option (Mem ℝ)) : Prop :=
  let tomo := initTomo data sinogramOrder
  tomo.d1 = theta.length ∧ tomo.d0 = (getCenter tomo.d0 tomo.d2 center).length ∧
  ∃ m', DistRecon cpu tomo.d0 ncore nchunk limit
      (cKernel run tomo.d1 tomo.d2 (ngx * ngy)
        fun c => tracerGeom ngx ngy tomo.d2 (fun _ => c) (fun p => theta.getD p 0) 0)
      (reconMem tomo (getCenter tomo.d0 tomo.d2 center) init) m' ∧
    result = fun s => m' (reconB, s)

/-- What is done between `project` and `recon`: nothing for `emission=True`, otherwise `minus_log`
(`source/tomopy/prep/normalize.py:72-95`), where all results are real numbers. -/
def Prepared (emission : Bool) (sim data : Arr3 ℝ) : Prop :=
  if emission then data = sim
  else data.d0 = sim.d0 ∧ data.d1 = sim.d1 ∧ data.d2 = sim.d2 ∧
    ∀ i < sim.d0, ∀ j < sim.d1, ∀ k < sim.d2,
      Normalize.minusLog sim.get i j k = Normalize.LogVal.fin (data.get i j k)

/-! ## Specification -/

/-- The two images of `ox × oz` pixels have the same projections. -/
def SameProjections (ox oz dx : Nat) (theta : List ℝ) (c : ℝ) (u v : Mem ℝ) : Prop :=
  ∀ p < theta.length, ∀ d < dx, rayIntegral ox oz dx theta c p d u = rayIntegral ox oz dx theta c p d v

/-- Squared distance of two images of `n` pixels. -/
def imageDist2 (n : Nat) (u v : Mem ℝ) : ℝ := ∑ i ∈ Finset.range n, (u i - v i) ^ 2

/-! ## Proofs -/

theorem lineSum_of_miss {N s : Nat} {ray : Segs ℝ} (h : sumDist2 ray = 0) (u : Mem ℝ) : lineSum N s ray u = 0 := by
  unfold lineSum
  refine List.sum_eq_zero fun x hx => ?_
  obtain ⟨e, he, rfl⟩ := List.mem_map.mp hx
  have : e.2 = 0 := by
    by_contra h2
    exact sumDist2_ne_zero_of he h2 h
  rw [this, mul_zero]

/-- For transmission data of finite objects `minus_log` gives real numbers. -/
theorem prepared_exists {cpu : Nat} {debug : Bool} {oy ox oz : Nat} {obj : Nat → Mem ℝ} {theta : List ℝ}
    {center : Option (List ℝ)} {emission : Bool} {pad : Pad} {sino : Bool} {so sc : Bool}
    {ncore nchunk : Option Nat} {sim : Arr3 ℝ}
    (h : Project cpu debug oy ox oz obj theta center emission pad sino so sc ncore nchunk sim)
    (hc : center = none ∨ ∃ c, center = some [c]) : ∃ data, Prepared emission sim data := by
  cases emission with
  | true => exact ⟨sim, rfl⟩
  | false =>
    obtain ⟨dx, -, hdim, hval⟩ := project_spec h hc
    refine ⟨⟨sim.d0, sim.d1, sim.d2, fun i j k => -Real.log (sim.get i j k)⟩, rfl, rfl, rfl,
      fun i hi j hj k hk => ?_⟩
    have hpos : 0 < sim.get i j k := by
      cases sino with
      | true =>
        simp only [if_true, Prod.mk.injEq] at hdim
        have := hval i (by omega) j (by omega) k (by omega)
        simp only [if_true, Bool.false_eq_true, if_false] at this
        rw [this]
        exact Real.exp_pos _
      | false =>
        simp only [Bool.false_eq_true, if_false, Prod.mk.injEq] at hdim
        have := hval j (by omega) i (by omega) k (by omega)
        simp only [Bool.false_eq_true, if_false] at this
        rw [this]
        exact Real.exp_pos _
    show Normalize.minusLogPix (sim.get i j k) = _
    unfold Normalize.minusLogPix
    rw [if_pos hpos]

/-- What `recon` gets: data in sinogram order that are the line integrals. -/
theorem prepared_value {cpu : Nat} {debug : Bool} {oy ox oz : Nat} {obj : Nat → Mem ℝ} {theta : List ℝ}
    {center : Option (List ℝ)} {emission : Bool} {pad : Pad} {sino : Bool} {so sc : Bool}
    {ncore nchunk : Option Nat} {sim data : Arr3 ℝ}
    (h : Project cpu debug oy ox oz obj theta center emission pad sino so sc ncore nchunk sim)
    (hc : center = none ∨ ∃ c, center = some [c]) (hp : Prepared emission sim data) :
    ∃ dx, projectWidth ox oz pad = .ok dx ∧ (initTomo data sino).d0 = oy ∧
      (initTomo data sino).d1 = theta.length ∧ (initTomo data sino).d2 = dx ∧
      ∀ s < oy, ∀ p < theta.length, ∀ d < dx, (initTomo data sino).get s p d =
        rayIntegral ox oz dx theta ((getCenter oy dx center).getD 0 0) p d (obj s) := by
  obtain ⟨dx, hw, hdim, hval⟩ := project_spec h hc
  refine ⟨dx, hw, ?_⟩
  have hlog : ∀ a b : ℝ, Normalize.minusLogPix (Real.exp (-a)) = Normalize.LogVal.fin b → b = a := by
    intro a b e
    rw [Normalize.minusLog_exp] at e
    exact (Normalize.LogVal.fin.inj e).symm
  cases sino <;> cases emission
  · simp only [Bool.false_eq_true, if_false, Prod.mk.injEq] at hdim hval
    obtain ⟨e0, e1, e2, hv⟩ := hp
    refine ⟨by simp [initTomo, swap01]; omega, by simp [initTomo, swap01]; omega, by simp [initTomo, swap01]; omega,
      fun s hs p hp d hd => ?_⟩
    have h1 := hv p (by omega) s (by omega) d (by omega)
    have h2 := hval s hs p hp d hd
    unfold Normalize.minusLog at h1
    rw [h2] at h1
    exact hlog _ _ h1
  · simp only [Bool.false_eq_true, if_false, if_true, Prod.mk.injEq] at hdim hval
    have e : data = sim := hp
    subst e
    refine ⟨by simp [initTomo, swap01]; omega, by simp [initTomo, swap01]; omega, by simp [initTomo, swap01]; omega,
      fun s hs p hp d hd => hval s hs p hp d hd⟩
  · simp only [Bool.false_eq_true, if_false, if_true, Prod.mk.injEq] at hdim hval
    obtain ⟨e0, e1, e2, hv⟩ := hp
    refine ⟨by simp [initTomo]; omega, by simp [initTomo]; omega, by simp [initTomo]; omega,
      fun s hs p hp d hd => ?_⟩
    have h1 := hv s (by omega) p (by omega) d (by omega)
    have h2 := hval s hs p hp d hd
    unfold Normalize.minusLog at h1
    rw [h2] at h1
    exact hlog _ _ h1
  · simp only [if_true, Prod.mk.injEq] at hdim hval
    have e : data = sim := hp
    subst e
    refine ⟨by simp [initTomo]; omega, by simp [initTomo]; omega, by simp [initTomo]; omega,
      fun s hs p hp d hd => hval s hs p hp d hd⟩

theorem getCenter_all {oy dx s : Nat} {center : Option (List ℝ)} (hc : center = none ∨ ∃ c, center = some [c])
    (hs : s < oy) : (getCenter oy dx center).getD s 0 = (getCenter oy dx center).getD 0 0 := by
  rcases hc with rfl | ⟨c, rfl⟩
  · rw [getCenter_default _ _ _ hs, getCenter_default _ _ _ (by omega)]
  · rw [getCenter_scalar _ _ _ _ hs, getCenter_scalar _ _ _ _ (by omega)]

/-- The data of one slice as `recon` sees them are consistent with every image that has the projections. -/
theorem row_consistent {ox oz dx : Nat} {theta : List ℝ} {c : ℝ} {tomo : Arr3 ℝ} {s : Nat} {z : Mem ℝ}
    (hdx : tomo.d2 = dx) (hv : ∀ p < theta.length, ∀ d < dx, tomo.get s p d = rayIntegral ox oz dx theta c p d z)
    (y : Mem ℝ) :
    Consistent ⟨1, theta.length, dx, ox * oz⟩
      (fun _ => tracerGeom ox oz dx (fun _ => c) (fun p => theta.getD p 0) 0)
      (fun n => tomo.get s (n / tomo.d2) (n % tomo.d2)) y ↔ SameProjections ox oz dx theta c y z := by
  have hidx : ∀ p d, d < dx → (⟨1, theta.length, dx, ox * oz⟩ : Dims).data 0 p d / dx = p ∧
      (⟨1, theta.length, dx, ox * oz⟩ : Dims).data 0 p d % dx = d := by
    intro p d hd
    show (d + p * dx + 0 * theta.length * dx) / dx = p ∧ (d + p * dx + 0 * theta.length * dx) % dx = d
    rw [Nat.zero_mul, Nat.zero_mul, Nat.add_zero, Nat.add_mul_div_right _ _ (by omega), Nat.div_eq_of_lt hd,
      Nat.zero_add, Nat.add_mul_mod_self_right, Nat.mod_eq_of_lt hd]
    exact ⟨rfl, rfl⟩
  constructor
  · intro h p hp d hd
    by_cases h0 : sumDist2 (tracerGeom ox oz dx (fun _ => c) (fun p => theta.getD p 0) 0 p d) = 0
    · unfold rayIntegral
      rw [lineSum_of_miss h0, lineSum_of_miss h0]
    · have := h 0 one_pos p hp d hd h0
      dsimp only at this
      rw [hdx, (hidx p d hd).1, (hidx p d hd).2, hv p hp d hd] at this
      exact this.symm
  · intro h s' hs' p hp d hd _
    have hs0 : s' = 0 := Nat.lt_one_iff.mp hs'
    subst hs0
    have hd' : d < dx := hd
    dsimp only
    rw [hdx, (hidx p d hd').1, (hidx p d hd').2, hv p hp d hd']
    exact (h p hp d hd').symm

theorem dist2_one (N : Nat) (dt dx : Nat) (u v : Mem ℝ) : dist2 ⟨1, dt, dx, N⟩ 0 u v = imageDist2 N u v := by
  unfold dist2 imageDist2
  refine Finset.sum_congr rfl fun n _ => ?_
  rw [Nat.zero_mul, Nat.add_zero]

/-- What `recon` with `art` does with data that are the line integrals of some image on the grid of the
reconstruction. -/
theorem recon_art_limit {oy ox oz dx : Nat} {obj : Nat → Mem ℝ} {theta : List ℝ} {center : Option (List ℝ)}
    {sino : Bool} {data : Arr3 ℝ} (hc : center = none ∨ ∃ c, center = some [c])
    (e0 : (initTomo data sino).d0 = oy) (e1 : (initTomo data sino).d1 = theta.length)
    (e2 : (initTomo data sino).d2 = dx)
    (hval : ∀ s < oy, ∀ p < theta.length, ∀ d < dx, (initTomo data sino).get s p d =
      rayIntegral ox oz dx theta ((getCenter oy dx center).getD 0 0) p d (obj s))
    (hclear : ∀ p < theta.length, ClearOfAxes (theta.getD p 0)) (init : Nat → Mem ℝ) :
    ∃ lim : Nat → Mem ℝ,
      (∀ s < oy, SameProjections ox oz dx theta ((getCenter oy dx center).getD 0 0) (lim s) (obj s)) ∧
      (∀ s < oy, ∀ y, SameProjections ox oz dx theta ((getCenter oy dx center).getD 0 0) y (obj s) →
        imageDist2 (ox * oz) (init s) y =
          imageDist2 (ox * oz) (init s) (lim s) + imageDist2 (ox * oz) (lim s) y) ∧
      ∀ result : Nat → Nat → Option (Mem ℝ),
        (∀ k, ∃ cpu' ncore' nchunk' limit', 1 ≤ cpu' ∧
          ReconRun cpu' (fun D g data recon => some (art D g data k recon)) ox oz data theta center sino init
            ncore' nchunk' limit' (result k)) →
        ∀ s < oy, ∃ r : Nat → Mem ℝ, (∀ k, result k s = some (r k)) ∧
          ∀ n < ox * oz, Tendsto (fun k => r k n) atTop (𝓝 (lim s n)) := by
  set c := (getCenter oy dx center).getD 0 0 with hcdef
  set geo : ℝ → Nat → Nat → Segs ℝ := fun c => tracerGeom ox oz dx (fun _ => c) (fun p => theta.getD p 0) 0
    with hgeo
  let row : Nat → Mem ℝ := fun s n => (initTomo data sino).get s (n / (initTomo data sino).d2)
    (n % (initTomo data sino).d2)
  have hG : GeomOk ⟨1, theta.length, dx, ox * oz⟩ (fun _ => geo c) := fun s _ p hp d hd =>
    tracer_geo_ok ox oz dx theta.length (fun p => theta.getD p 0) c p hp d hd
  have hO : GeomOnce ⟨1, theta.length, dx, ox * oz⟩ (fun _ => geo c) := fun s _ p hp d hd =>
    tracer_geomOnce ox oz dx 1 theta.length (fun _ => c) (fun p => theta.getD p 0) hclear 0 one_pos p hp d hd
  have hcons : ∀ s < oy, ∀ y, Consistent ⟨1, theta.length, dx, ox * oz⟩ (fun _ => geo c) (row s) y ↔
      SameProjections ox oz dx theta c y (obj s) := fun s hs y =>
    row_consistent e2 (fun p hp d hd => hval s hs p hp d hd) y
  have hart : ∀ s, ∃ lim : Mem ℝ, s < oy →
      Consistent ⟨1, theta.length, dx, ox * oz⟩ (fun _ => geo c) (row s) lim ∧
      (∀ n < ox * oz, Tendsto (fun k => art ⟨1, theta.length, dx, ox * oz⟩ (fun _ => geo c) (row s) k (init s) n)
        atTop (𝓝 (lim n))) ∧
      ∀ y, SameProjections ox oz dx theta c y (obj s) → imageDist2 (ox * oz) (init s) y =
        imageDist2 (ox * oz) (init s) lim + imageDist2 (ox * oz) lim y := by
    intro s
    by_cases hs : s < oy
    · obtain ⟨lim, h1, h2, h3⟩ := art_converges hG hO
        (((hcons s hs (obj s)).mpr fun _ _ _ _ => rfl)) (init s)
      refine ⟨lim, fun _ => ⟨h1, fun n hn => ?_, fun y hy => ?_⟩⟩
      · have := h2 0 one_pos n hn
        simp only [Nat.zero_mul, Nat.add_zero] at this
        exact this
      · have := h3 y ((hcons s hs y).mpr hy) 0 one_pos
        simp only [dist2_one] at this
        exact this
    · exact ⟨zeros, fun h => absurd h hs⟩
  choose lim hlim using hart
  refine ⟨lim, fun s hs => (hcons s hs _).mp (hlim s hs).1, fun s hs y hy => (hlim s hs).2.2 y hy, ?_⟩
  intro result hres s hs
  have hk : ∀ k, result k s = some (cut (ox * oz)
      (art ⟨1, theta.length, dx, ox * oz⟩ (fun _ => geo c) (row s) k (init s))) := by
    intro k
    obtain ⟨cpu', ncore', nchunk', limit', hcpu, -, -, m', hm, hr⟩ := hres k
    have hcen : ∀ i < oy, (getCenter (initTomo data sino).d0 (initTomo data sino).d2 center).getD i 0 = c := by
      intro i hi
      rw [e0, e2, getCenter_all hc hi]
    have hown := recon_art_own_partial hcpu (dt := (initTomo data sino).d1) (dx := (initTomo data sino).d2)
      (N := ox * oz) (num_iter := k)
      (geo := fun c => tracerGeom ox oz (initTomo data sino).d2 (fun _ => c) (fun p => theta.getD p 0) 0)
      (fun c p hp d hd => tracer_geo_ok ox oz _ (initTomo data sino).d1 _ c p hp d hd)
      (some fun _ => c) (fun i hi => by
        rw [e0] at hi
        show (some fun _ => _ : Option (Mem ℝ)) = some fun _ => c
        rw [hcen i hi]) hm
    rw [hr]
    dsimp only
    rw [hown.1 s (by rw [e0]; exact hs)]
    show some (cut (ox * oz) (art ⟨1, (initTomo data sino).d1, (initTomo data sino).d2, ox * oz⟩
      (fun _ => tracerGeom ox oz (initTomo data sino).d2 (fun _ =>
        (getCenter (initTomo data sino).d0 (initTomo data sino).d2 center).getD s 0) (fun p => theta.getD p 0) 0)
      (row s) k (init s))) = _
    rw [hcen s hs, e1, e2]
  refine ⟨_, hk, fun n hn => ?_⟩
  have := (hlim s hs).2.1 n hn
  refine this.congr fun k => ?_
  unfold cut
  rw [if_pos hn]

/-- **C171**: the images that `recon` with `art` returns for the projections of an object converge, as the number
of iterations grows and whatever the distribution over workers, to images with the projections of the object; of
all such images they are nearest to the initial ones. -/
theorem roundTrip_art {cpu : Nat} {debug : Bool} {oy ox oz : Nat} {obj : Nat → Mem ℝ} {theta : List ℝ}
    {center : Option (List ℝ)} {emission : Bool} {pad : Pad} {sino : Bool} {so sc : Bool}
    {ncore nchunk : Option Nat} {sim data : Arr3 ℝ}
    (h : Project cpu debug oy ox oz obj theta center emission pad sino so sc ncore nchunk sim)
    (hc : center = none ∨ ∃ c, center = some [c]) (hp : Prepared emission sim data)
    (hclear : ∀ p < theta.length, ClearOfAxes (theta.getD p 0)) (init : Nat → Mem ℝ) :
    ∃ dx, projectWidth ox oz pad = .ok dx ∧ ∃ lim : Nat → Mem ℝ,
      (∀ s < oy, SameProjections ox oz dx theta ((getCenter oy dx center).getD 0 0) (lim s) (obj s)) ∧
      (∀ s < oy, ∀ y, SameProjections ox oz dx theta ((getCenter oy dx center).getD 0 0) y (obj s) →
        imageDist2 (ox * oz) (init s) y =
          imageDist2 (ox * oz) (init s) (lim s) + imageDist2 (ox * oz) (lim s) y) ∧
      ∀ result : Nat → Nat → Option (Mem ℝ),
        (∀ k, ∃ cpu' ncore' nchunk' limit', 1 ≤ cpu' ∧
          ReconRun cpu' (fun D g data recon => some (art D g data k recon)) ox oz data theta center sino init
            ncore' nchunk' limit' (result k)) →
        ∀ s < oy, ∃ r : Nat → Mem ℝ, (∀ k, result k s = some (r k)) ∧
          ∀ n < ox * oz, Tendsto (fun k => r k n) atTop (𝓝 (lim s n)) := by
  obtain ⟨dx, hw, e0, e1, e2, hval⟩ := prepared_value h hc hp
  exact ⟨dx, hw, recon_art_limit hc e0 e1 e2 hval hclear init⟩

/-- **C171**: if only the object has its projections, `art` recovers it. -/
theorem roundTrip_art_object {cpu : Nat} {debug : Bool} {oy ox oz : Nat} {obj : Nat → Mem ℝ} {theta : List ℝ}
    {center : Option (List ℝ)} {emission : Bool} {pad : Pad} {sino : Bool} {so sc : Bool}
    {ncore nchunk : Option Nat} {sim data : Arr3 ℝ} {dx : Nat}
    (h : Project cpu debug oy ox oz obj theta center emission pad sino so sc ncore nchunk sim)
    (hc : center = none ∨ ∃ c, center = some [c]) (hp : Prepared emission sim data)
    (hclear : ∀ p < theta.length, ClearOfAxes (theta.getD p 0)) (hw : projectWidth ox oz pad = .ok dx)
    {s : Nat} (hs : s < oy)
    (huniq : ∀ y, SameProjections ox oz dx theta ((getCenter oy dx center).getD 0 0) y (obj s) →
      ∀ n < ox * oz, y n = obj s n)
    (init : Nat → Mem ℝ) (result : Nat → Nat → Option (Mem ℝ))
    (hres : ∀ k, ∃ cpu' ncore' nchunk' limit', 1 ≤ cpu' ∧
      ReconRun cpu' (fun D g data recon => some (art D g data k recon)) ox oz data theta center sino init
        ncore' nchunk' limit' (result k)) :
    ∃ r : Nat → Mem ℝ, (∀ k, result k s = some (r k)) ∧
      ∀ n < ox * oz, Tendsto (fun k => r k n) atTop (𝓝 (obj s n)) := by
  obtain ⟨dx', hw', lim, h1, -, h3⟩ := roundTrip_art h hc hp hclear init
  have e : dx' = dx := by
    rw [hw] at hw'
    exact (Except.ok.inj hw').symm
  subst e
  obtain ⟨r, h4, h5⟩ := h3 result hres s hs
  exact ⟨r, h4, fun n hn => by rw [← huniq _ (h1 s hs) n hn]; exact h5 n hn⟩

/-- **C171**: the images that `recon` with `mlem` returns for the projections of an object without negative
pixels, and from positive initial images, converge to images without negative pixels that have the projections of
the object, if every ray that crosses the grid has a positive integral. -/
theorem roundTrip_mlem {cpu : Nat} {debug : Bool} {oy ox oz : Nat} {obj : Nat → Mem ℝ} {theta : List ℝ}
    {center : Option (List ℝ)} {emission : Bool} {pad : Pad} {sino : Bool} {so sc : Bool}
    {ncore nchunk : Option Nat} {sim data : Arr3 ℝ} {dx : Nat}
    (h : Project cpu debug oy ox oz obj theta center emission pad sino so sc ncore nchunk sim)
    (hc : center = none ∨ ∃ c, center = some [c]) (hp : Prepared emission sim data)
    (hw : projectWidth ox oz pad = .ok dx)
    (hobj : ∀ s < oy, ∀ n < ox * oz, 0 ≤ obj s n)
    (hpos : ∀ s < oy, ∀ p < theta.length, ∀ d < dx,
      (∃ u, rayIntegral ox oz dx theta ((getCenter oy dx center).getD 0 0) p d u ≠ 0) →
        0 < rayIntegral ox oz dx theta ((getCenter oy dx center).getD 0 0) p d (obj s))
    {init : Nat → Mem ℝ} (hinit : ∀ s < oy, ∀ n < ox * oz, 0 < init s n) :
    ∃ lim : Nat → Mem ℝ,
      (∀ s < oy, SameProjections ox oz dx theta ((getCenter oy dx center).getD 0 0) (lim s) (obj s)) ∧
      (∀ s < oy, ∀ n < ox * oz, 0 ≤ lim s n) ∧
      ∀ result : Nat → Nat → Option (Mem ℝ),
        (∀ k, ∃ cpu' ncore' nchunk' limit', 1 ≤ cpu' ∧
          ReconRun cpu' (fun D g data recon => mlem D g data k recon) ox oz data theta center sino init
            ncore' nchunk' limit' (result k)) →
        ∀ s < oy, ∃ r : Nat → Mem ℝ, (∀ k, result k s = some (r k)) ∧
          ∀ n < ox * oz, Tendsto (fun k => r k n) atTop (𝓝 (lim s n)) := by
  obtain ⟨dx', hw', e0, e1, e2, hval⟩ := prepared_value h hc hp
  have e : dx' = dx := by
    rw [hw] at hw'
    exact (Except.ok.inj hw').symm
  subst e
  set c := (getCenter oy dx' center).getD 0 0 with hcdef
  set geo : ℝ → Nat → Nat → Segs ℝ := fun c => tracerGeom ox oz dx' (fun _ => c) (fun p => theta.getD p 0) 0
    with hgeo
  let row : Nat → Mem ℝ := fun s n => (initTomo data sino).get s (n / (initTomo data sino).d2)
    (n % (initTomo data sino).d2)
  have hG : GeomOk ⟨1, theta.length, dx', ox * oz⟩ (fun _ => geo c) := fun s _ p hp d hd =>
    tracer_geo_ok ox oz dx' theta.length (fun p => theta.getD p 0) c p hp d hd
  have hcons : ∀ s < oy, ∀ y, Consistent ⟨1, theta.length, dx', ox * oz⟩ (fun _ => geo c) (row s) y ↔
      SameProjections ox oz dx' theta c y (obj s) := fun s hs y =>
    row_consistent e2 (fun p hp d hd => hval s hs p hp d hd) y
  have hhits : ∀ s < oy, PosHits ⟨1, theta.length, dx', ox * oz⟩ (fun _ => geo c) (row s) := by
    intro s hs s' hs' p hp' d hd h0
    rw [(hcons s hs (obj s)).mpr (fun _ _ _ _ => rfl) s' hs' p hp' d hd h0]
    have hs0 : s' = 0 := Nat.lt_one_iff.mp hs'
    subst hs0
    refine hpos s hs p hp' d hd ⟨fun _ => 1, ?_⟩
    exact (lineSum_pos (hG 0 one_pos p hp' d hd) (fun _ _ => one_pos) h0).ne'
  have himg : ∀ s < oy, PosImage ⟨1, theta.length, dx', ox * oz⟩ (init s) := by
    intro s hs s' hs' n hn
    have hs0 : s' = 0 := Nat.lt_one_iff.mp hs'
    subst hs0
    rw [Nat.zero_mul]
    exact hinit s hs n hn
  have hml : ∀ s, ∃ (out : Nat → Mem ℝ) (lim : Mem ℝ), s < oy →
      (∀ k, mlem ⟨1, theta.length, dx', ox * oz⟩ (fun _ => geo c) (row s) k (init s) = some (out k)) ∧
      Consistent ⟨1, theta.length, dx', ox * oz⟩ (fun _ => geo c) (row s) lim ∧
      ∀ n < ox * oz, 0 ≤ lim n ∧ Tendsto (fun k => out k n) atTop (𝓝 (lim n)) := by
    intro s
    by_cases hs : s < oy
    · obtain ⟨out, lim, h1, h2, h3⟩ := mlem_reproduces hG (z := obj s) (fun s' hs' n hn => by
          have hs0 : s' = 0 := Nat.lt_one_iff.mp hs'
          subst hs0
          rw [Nat.zero_mul]
          exact hobj s hs n hn)
        ((hcons s hs (obj s)).mpr fun _ _ _ _ => rfl) (hhits s hs) (himg s hs)
      refine ⟨out, lim, fun _ => ⟨h1, h2, fun n hn => ?_⟩⟩
      have := h3 0 one_pos n hn
      simp only [Nat.zero_mul, Nat.add_zero] at this
      exact this
    · exact ⟨fun _ => zeros, zeros, fun h => absurd h hs⟩
  choose out lim hlim using hml
  refine ⟨lim, fun s hs => (hcons s hs _).mp (hlim s hs).2.1, fun s hs n hn => ((hlim s hs).2.2 n hn).1, ?_⟩
  intro result hres s hs
  have hk : ∀ k, result k s = some (cut (ox * oz) (out s k)) := by
    intro k
    obtain ⟨cpu', ncore', nchunk', limit', hcpu, -, -, m', hm, hr⟩ := hres k
    have hcen : ∀ i < oy, (getCenter (initTomo data sino).d0 (initTomo data sino).d2 center).getD i 0 = c := by
      intro i hi
      rw [e0, e2, getCenter_all hc hi]
    have hval' : ∀ i < oy, ownRun (fun D g data recon => mlem D g data k recon) (initTomo data sino).d1
        (initTomo data sino).d2 (ox * oz)
        (fun c => tracerGeom ox oz (initTomo data sino).d2 (fun _ => c) (fun p => theta.getD p 0) 0)
        (some (row i)) (some fun _ => (getCenter (initTomo data sino).d0 (initTomo data sino).d2 center).getD i 0)
        (some (init i)) = some (cut (ox * oz) (out i k)) := by
      intro i hi
      show (mlem ⟨1, (initTomo data sino).d1, (initTomo data sino).d2, ox * oz⟩ (fun _ => tracerGeom ox oz
        (initTomo data sino).d2 (fun _ => (getCenter (initTomo data sino).d0 (initTomo data sino).d2 center).getD i 0)
        (fun p => theta.getD p 0) 0) (row i) k (init i)).map (cut (ox * oz)) = _
      rw [hcen i hi, e1, e2]
      exact congrArg (Option.map (cut (ox * oz))) ((hlim i hi).1 k)
    have hown := recon_own hcpu (mlem_runAlone (initTomo data sino).d1 (initTomo data sino).d2 (ox * oz) k)
      (geo := fun c => tracerGeom ox oz (initTomo data sino).d2 (fun _ => c) (fun p => theta.getD p 0) 0)
      (fun c p hp d hd => tracer_geo_ok ox oz _ (initTomo data sino).d1 _ c p hp d hd)
      (fun i hi hn => by
        rw [e0] at hi
        have := (hval' i hi).symm.trans hn
        cases this) hm
    rw [hr]
    dsimp only
    rw [hown.1 s (by rw [e0]; exact hs)]
    exact hval' s hs
  refine ⟨_, hk, fun n hn => ?_⟩
  refine ((hlim s hs).2.2 n hn).2.congr fun k => ?_
  unfold cut
  rw [if_pos hn]

/-! ## Runs exist -/

/-- `recon` gives a result for the projections of an object with at least one slice. -/
theorem roundTrip_total {cpu : Nat} {debug : Bool} {oy ox oz : Nat} {obj : Nat → Mem ℝ} {theta : List ℝ}
    {center : Option (List ℝ)} {emission : Bool} {pad : Pad} {sino : Bool} {so sc : Bool}
    {ncore nchunk : Option Nat} {sim data : Arr3 ℝ}
    (h : Project cpu debug oy ox oz obj theta center emission pad sino so sc ncore nchunk sim)
    (hc : center = none ∨ ∃ c, center = some [c]) (hp : Prepared emission sim data) (hoy : 1 ≤ oy)
    (run : Run ℝ) (init : Nat → Mem ℝ) {cpu' : Nat} (hcpu : 1 ≤ cpu') (ncore' nchunk' limit' : Option Nat)
    (hl : limit' ≠ some 0) :
    ∃ result, ReconRun cpu' run ox oz data theta center sino init ncore' nchunk' limit' result := by
  obtain ⟨dx, -, e0, e1, e2, -⟩ := prepared_value h hc hp
  obtain ⟨m', hm⟩ := recon_total hcpu (n := (initTomo data sino).d0) (by rw [e0]; exact hoy) ncore' nchunk' limit' hl
    (cKernel run (initTomo data sino).d1 (initTomo data sino).d2 (ox * oz)
        fun c => tracerGeom ox oz (initTomo data sino).d2 (fun _ => c) (fun p => theta.getD p 0) 0)
    (reconMem (initTomo data sino) (getCenter (initTomo data sino).d0 (initTomo data sino).d2 center) init)
  refine ⟨_, e1, ?_, m', hm, rfl⟩
  rw [getCenter_length]
  rintro cs rfl
  rcases hc with hc | ⟨c, hc⟩
  · cases hc
  · cases hc
    exact Or.inl rfl

/-! ## When the projections determine the object -/

/-- **C171**: one view at angle 0 determines an object that is one pixel thick, if the widths of object and
detector are both even or both odd. -/
theorem thin_determined {oz k : Nat} {theta : List ℝ} {p : Nat} (hp : p < theta.length) (h0 : theta.getD p 0 = 0)
    {u v : Mem ℝ}
    (h : SameProjections 1 oz (oz + 2 * k) theta (((oz + 2 * k : Nat) : ℝ) / 2) u v) :
    ∀ n < 1 * oz, u n = v n := by
  intro n hn
  have := h p hp (k + n) (by omega)
  rw [project_axis0_partial one_pos h0, project_axis0_partial one_pos h0, if_pos (by omega), if_pos (by omega)] at this
  simpa using this

theorem sum_two (f : Nat → ℝ) : ∑ i ∈ Finset.range 2, f i = f 0 + f 1 := by
  rw [show Finset.range 2 = Finset.range (0 + 1 + 1) from rfl, Finset.sum_range_succ, Finset.sum_range_succ,
    Finset.sum_range_zero, zero_add]

/-- **C171 (refutation)**: views along the two axes do not determine an object of `2 × 2` pixels, so `art` does not
find every object from its projections. -/
theorem two_views_undetermined (k : Nat) :
    SameProjections 2 2 (2 + 2 * k) [0, Real.pi / 2] (((2 + 2 * k : Nat) : ℝ) / 2)
      (fun n => if n = 0 ∨ n = 3 then 1 else -1) (fun _ => 0) ∧
    (fun n : Nat => if n = 0 ∨ n = 3 then (1 : ℝ) else -1) 0 ≠ 0 := by
  refine ⟨fun p hp d _ => ?_, by norm_num⟩
  have hp2 : p = 0 ∨ p = 1 := by
    simp only [List.length_cons, List.length_nil] at hp
    omega
  rcases hp2 with rfl | rfl
  · rw [project_axis0_partial two_pos rfl, project_axis0_partial two_pos rfl]
    split
    · rename_i hd
      have : d - k = 0 ∨ d - k = 1 := by omega
      rcases this with e | e <;> rw [e, sum_two] <;> norm_num
    · rfl
  · rw [project_axis1_partial two_pos rfl, project_axis1_partial two_pos rfl]
    split
    · rename_i hd
      have : k + 2 - 1 - d = 0 ∨ k + 2 - 1 - d = 1 := by omega
      rcases this with e | e <;> rw [e, sum_two] <;> norm_num
    · rfl

/-- **C171 (refutation)** for the calls: from the image 0, `art` on the projections of that object along the axes
never leaves 0, while the object is not 0. -/
theorem roundTrip_art_wrong {cpu : Nat} {debug : Bool} {emission : Bool} {sino : Bool} {so sc : Bool}
    {ncore nchunk : Option Nat} {sim data : Arr3 ℝ}
    (h : Project cpu debug 1 2 2 (fun _ n => if n = 0 ∨ n = 3 then 1 else -1) [0, Real.pi / 2] none emission .no sino
      so sc ncore nchunk sim)
    (hp : Prepared emission sim data) (result : Nat → Nat → Option (Mem ℝ))
    (hres : ∀ k, ∃ cpu' ncore' nchunk' limit', 1 ≤ cpu' ∧
      ReconRun cpu' (fun D g data recon => some (art D g data k recon)) 2 2 data [0, Real.pi / 2] none sino
        (fun _ => zeros) ncore' nchunk' limit' (result k)) :
    ∃ r : Nat → Mem ℝ, (∀ k, result k 0 = some (r k)) ∧ ∀ n < 4, Tendsto (fun k => r k n) atTop (𝓝 0) := by
  obtain ⟨dx, hw, lim, h1, h2, h3⟩ := roundTrip_art h (Or.inl rfl) hp (fun p hp => by
    have hp2 : p = 0 ∨ p = 1 := by
      simp only [List.length_cons, List.length_nil] at hp
      omega
    rcases hp2 with rfl | rfl
    · exact Ray.clear_zero
    · exact Ray.clear_half) (fun _ => zeros)
  have e : dx = 2 := (Except.ok.inj hw).symm
  subst e
  obtain ⟨r, h4, h5⟩ := h3 result hres 0 one_pos
  refine ⟨r, h4, fun n hn => ?_⟩
  have hz : SameProjections 2 2 2 [0, Real.pi / 2] ((getCenter 1 2 none).getD 0 0) zeros
      (fun n => if n = 0 ∨ n = 3 then 1 else -1) := by
    have := (two_views_undetermined 0).1
    rw [getCenter_default _ _ _ one_pos]
    intro p hp d hd
    exact (this p hp d hd).symm
  have h6 := h2 0 one_pos zeros hz
  have hnn : ∀ u v : Mem ℝ, 0 ≤ imageDist2 (2 * 2) u v := fun u v => Finset.sum_nonneg fun i _ => sq_nonneg _
  have hself : imageDist2 (2 * 2) zeros (zeros : Mem ℝ) = 0 := by
    unfold imageDist2
    simp
  have h7 : imageDist2 (2 * 2) zeros (lim 0) = 0 := by
    have a := hnn zeros (lim 0)
    have b := hnn (lim 0) zeros
    linarith
  have h8 := (Finset.sum_eq_zero_iff_of_nonneg (fun i _ => sq_nonneg _)).mp h7 n (Finset.mem_range.mpr hn)
  have h9 : lim 0 n = 0 := by
    have : (0 : ℝ) - lim 0 n = 0 := pow_eq_zero_iff two_ne_zero |>.mp h8
    linarith
  rw [← h9]
  exact h5 n hn

/-! ## Cases -/

theorem width_one_two : projectWidth 1 2 .yes = .ok 6 := by
  have h2 : Real.sqrt 5 < 3 := by
    rw [Real.sqrt_lt' (by norm_num)]
    norm_num
  have h3 : (2 : ℝ) < Real.sqrt 5 := by
    rw [Real.lt_sqrt (by norm_num)]
    norm_num
  have e : ((1 : Nat) : ℝ) * (1 : Nat) + (2 : Nat) * (2 : Nat) = 5 := by norm_num
  have h4 : ⌈(Real.sqrt 5 + 2) / 2⌉₊ = 3 := by
    rw [Nat.ceil_eq_iff (by norm_num)]
    norm_num
    constructor <;> linarith
  unfold projectWidth roundToEven
  dsimp only
  rw [e, h4]

/-- Any object of `1 × 2` pixels per slice, seen at angle 0 in transmission: the calls have results, and with
growing number of iterations these converge to the object. -/
example (obj : Nat → Mem ℝ) (oy : Nat) (hoy : 1 ≤ oy) (init : Nat → Mem ℝ) :
    ∃ sim data, Project 4 false oy 1 2 obj [0] none false .yes true true true none none sim ∧
      Prepared false sim data ∧ ∃ result : Nat → Nat → Option (Mem ℝ),
        (∀ k, ReconRun 4 (fun D g data recon => some (art D g data k recon)) 1 2 data [0] none true init none none none
          (result k)) ∧
        ∀ s < oy, ∃ r : Nat → Mem ℝ, (∀ k, result k s = some (r k)) ∧
          ∀ n < 2, Tendsto (fun k => r k n) atTop (𝓝 (obj s n)) := by
  obtain ⟨sim, h⟩ := project_total 4 (by decide) false hoy 1 2 obj [0] none false (pad := .yes) (fun h => by cases h) true true
    true none none (by decide)
  obtain ⟨data, hp⟩ := prepared_exists h (Or.inl rfl)
  choose result hres using fun k => roundTrip_total h (Or.inl rfl) hp hoy
    (fun D g data recon => some (art D g data k recon)) init (cpu' := 4) (by decide) none none none (by decide)
  refine ⟨sim, data, h, hp, result, hres, fun s hs => ?_⟩
  refine roundTrip_art_object h (Or.inl rfl) hp (fun p hp => ?_) width_one_two hs (fun y hy => ?_) init result
    (fun k => ⟨4, none, none, none, by decide, hres k⟩)
  · have : p = 0 := Nat.lt_one_iff.mp hp
    subst this
    exact Ray.clear_zero
  · rw [getCenter_default _ _ _ hoy] at hy
    exact thin_determined (oz := 2) (k := 2) (theta := [0]) (p := 0) (by decide) rfl hy

end Tomopy.Recon
