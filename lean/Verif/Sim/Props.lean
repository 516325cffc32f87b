import Verif.Sim.Model
import Verif.Iter.Project
import Verif.Mproc.Props

/-!
# Properties of `project` (C31, C62, C51)
-/

set_option linter.unusedSectionVars false

namespace Tomopy.Sim

open Tomopy.Iter Tomopy.Mproc Tomopy.Recon Tomopy.Par

/-! ## Chunks -/

/-- The first slice of the chunk in which slice `s` is processed, for chunk size `nk` (chunk size
0 means single slices). -/
def chunkStart (nk s : Nat) : Nat := if nk = 0 then s else s / nk * nk

theorem chunk_of_slice {n nk i : Nat} {ch : List Nat}
    (h : ch ∈ (jobSlices n nk).map (Slc.indices n)) (hi : i ∈ ch) :
    ∃ len, ch = List.range' (chunkStart nk i) len := by
  rw [List.mem_map] at h
  obtain ⟨sl, hsl, rfl⟩ := h
  unfold jobSlices at hsl
  unfold chunkStart
  split at hsl
  · rename_i h0
    rw [if_pos h0]
    simp only [List.mem_map] at hsl
    obtain ⟨o, _, rfl⟩ := hsl
    simp only [Slc.indices] at hi ⊢
    split at hi
    · rename_i hlt
      rw [if_pos hlt]
      simp only [List.mem_singleton] at hi
      subst hi
      exact ⟨1, rfl⟩
    · simp at hi
  · rename_i h0
    rw [if_neg h0]
    simp only [pyRange, List.mem_map, List.mem_range] at hsl
    obtain ⟨o, ⟨j, _, rfl⟩, rfl⟩ := hsl
    simp only [Slc.indices] at hi ⊢
    rw [List.mem_range'_1] at hi
    have : i / nk = j := by
      rw [Nat.div_eq_iff (by omega)]
      constructor
      · exact hi.1
      · have := hi.2
        omega
    rw [this]
    exact ⟨_, rfl⟩

theorem run_chunkProg_rows {α : Type} (ins : List Buf) (hins : ins.Nodup) (out : Buf)
    (f : BlockFun α) (hret : ∀ rows, f.ret rows = none) (c : List Nat) (hn : c.Nodup)
    (m : Cell → α) (h : Nat → List α) (hlen : ∀ i, (h i).length = ins.length)
    (hinp : f.inplace (c.map fun i => ins.map fun b => m (b, i)) = c.map h)
    (i : Nat) (hi : i ∈ c) :
    ins.map (fun b => (chunkProg ins out f c).run m (b, i)) = h i := by
  refine List.ext_getElem (by simp [hlen]) ?_
  intro k hk hk'
  rw [List.getElem_map]
  have e := congrFun (run_chunkProg ins out f c m) (ins[k]'(by simpa using hk), i)
  rw [e, hret]
  simp only [outWrites, Prog.writeAll, Prog.run, hinp]
  apply run_writeAll_mem
  · exact rowWrites_nodup ins hins c hn _
  · unfold rowWrites
    rw [zip_map_self, List.flatMap_map, List.mem_flatMap]
    refine ⟨i, hi, ?_⟩
    rw [List.mem_map]
    simp only [List.length_map] at hk
    refine ⟨(ins[k], (h i)[k]), ?_, rfl⟩
    rw [List.mem_iff_getElem]
    exact ⟨k, by simp [hlen]; omega, by simp⟩

section Generic

variable {K : Type} [Field K] [LinearOrder K] [IsStrictOrderedRing K]

/-- `c_project` on the chunk `lo, ..., lo+len-1`: every data element of the chunk is increased by
the line integral of its slice, with the rotation centre of the first slice of the chunk. -/
theorem cProject_chunk (dt dx N : Nat) (geo : K → Nat → Nat → Segs K)
    (hgeo : ∀ c p d, ∀ e ∈ geo c p d, e.1 < N) (obj tomo : Nat → Mem K) (center : Nat → K)
    (lo len : Nat) :
    ∃ h : Nat → List (Mem K),
      (cProject dt dx N geo).inplace
          ((List.range' lo len).map fun i => [obj i, fun _ => center i, tomo i])
        = (List.range' lo len).map h ∧
      (∀ i, (h i).length = 3) ∧
      ∀ i ∈ List.range' lo len, ∃ t, h i = [obj i, fun _ => center i, t] ∧
        ∀ p < dt, ∀ d < dx,
          t (d + p * dx) = tomo i (d + p * dx) + lineSum N 0 (geo (center lo) p d) (obj i) := by
  obtain ⟨rows, hrows⟩ : ∃ rows : List (List (Mem K)), rows =
    (List.range' lo len).map fun i => [obj i, fun _ => center i, tomo i] := ⟨_, rfl⟩
  rw [← hrows]
  have hlen : rows.length = len := by simp [hrows]
  have hrow : ∀ s < len, rows.getD s [] = [obj (lo + s), fun _ => center (lo + s), tomo (lo + s)] := by
    intro s hs
    simp [hrows, List.getD_eq_getElem?_getD, hs]
  refine ⟨fun i => [(rows.getD (i - lo) []).getD 0 zeros, (rows.getD (i - lo) []).getD 1 zeros,
      fun n => project ⟨rows.length, dt, dx, N⟩ (fun s => geo (flat 1 rows 1 s)) (flat N rows 0)
        (flat (dt * dx) rows 2) (n + (i - lo) * (dt * dx))], ?_, fun _ => rfl, ?_⟩
  · show (List.range rows.length).map _ = _
    rw [hlen, List.range'_eq_map_range, List.map_map]
    apply List.map_congr_left
    intro s _
    simp
  · intro i hi
    rw [List.mem_range'_1] at hi
    have hs : i - lo < len := by omega
    have hio : lo + (i - lo) = i := by omega
    refine ⟨fun n => project ⟨rows.length, dt, dx, N⟩ (fun s => geo (flat 1 rows 1 s)) (flat N rows 0)
        (flat (dt * dx) rows 2) (n + (i - lo) * (dt * dx)), ?_, ?_⟩
    rotate_left
    · intro p hp d hd
      have hN : 0 < dt * dx := Nat.mul_pos (by omega) (by omega)
      have hpd : d + p * dx < dt * dx := pix_lt hd hp
      have e1 : d + p * dx + (i - lo) * (dt * dx) =
          Dims.data ⟨rows.length, dt, dx, N⟩ (i - lo) p d := by
        unfold Dims.data; ring
      have hv := project_value ⟨rows.length, dt, dx, N⟩ (fun s => geo (flat 1 rows 1 s))
        (flat N rows 0) (flat (dt * dx) rows 2) (s := i - lo) (p := p) (d := d)
        (by rw [hlen]; exact hs) hp hd
      rw [← e1] at hv
      refine hv.trans ?_
      congr 1
      · unfold flat
        rw [Nat.add_mul_div_right _ _ hN, Nat.div_eq_of_lt hpd, Nat.zero_add,
          Nat.add_mul_mod_self_right, Nat.mod_eq_of_lt hpd, hrow _ hs, hio]
        rfl
      · have hc : flat 1 rows 1 0 = center lo := by
          unfold flat
          simp only [Nat.zero_div, Nat.zero_mod]
          rw [hrow 0 (by omega)]
          rfl
        rw [hc]
        unfold lineSum
        congr 1
        apply List.map_congr_left
        intro e he
        have hlt := hgeo (center lo) p d e he
        have hN0 : 0 < N := by omega
        congr 1
        show flat N rows 0 (e.1 + (i - lo) * N) = obj i (e.1 + 0 * N)
        unfold flat
        rw [Nat.add_mul_div_right _ _ hN0, Nat.div_eq_of_lt hlt, Nat.zero_add,
          Nat.add_mul_mod_self_right, Nat.mod_eq_of_lt hlt, hrow _ hs, hio]
        simp
    · simp only [hrow _ hs, hio]
      rfl

/-- **C31, C62**: the value of `project` for every processor count, `ncore`, `nchunk` and
schedule: the element of slice `s` is the line integral of slice `s`, along the ray for the
rotation centre of the first slice in its chunk. -/
theorem projectSino_value {cpu : Nat} {debug : Bool} {oy dt dx N : Nat}
    {geo : K → Nat → Nat → Segs K} {so sc : Bool} {ncore nchunk : Option Nat} {obj : Nat → Mem K}
    {center : Option (List K)} {result : Arr3 K}
    (hgeo : ∀ c p d, ∀ e ∈ geo c p d, e.1 < N)
    (h : ProjectSino cpu debug oy dt dx N geo so sc ncore nchunk obj center result) :
    result.d0 = oy ∧ result.d1 = dt ∧ result.d2 = dx ∧
    ∃ nc nk, getNcoreNchunk cpu oy ncore nchunk = .ok (nc, nk) ∧
      ∀ s < oy, ∀ p < dt, ∀ d < dx, result.get s p d =
        lineSum N 0 (geo ((getCenter oy dx center).getD (chunkStart nk s) 0) p d) (obj s) := by
  obtain ⟨m', res, hd, rfl⟩ := h
  refine ⟨rfl, rfl, rfl, ?_⟩
  obtain ⟨m1, hm', hres, ⟨nc, nk, hnk, hch⟩, _⟩ := dist_core hd
  refine ⟨nc, nk, hnk, ?_⟩
  intro s hs p hp d hdx
  obtain ⟨ch, hchm, hnd, hich, _, hrun⟩ := hch s hs
  obtain ⟨len, rfl⟩ := chunk_of_slice hchm hich
  let call := projectCall oy dt dx N geo so sc ncore nchunk
  let cen : Nat → K := fun s => (getCenter oy dx center).getD s 0
  have hndI : (sharedIns call.shared 0 call.ins).Nodup :=
    (sharedIns_nodup call.shared call.ins (by simp [call, projectCall]) 0).1
  have hrows : ∀ i, (sharedIns call.shared 0 call.ins).map
      (fun b => prepare call.ins call.out (projectMem obj cen) (b, i)) =
      [obj i, fun _ => cen i, zeros] := by
    intro i
    rw [prepare_sharedIns]
    simp [call, projectCall, projectMem]
  obtain ⟨hf, hf1, hf2, hf3⟩ := cProject_chunk dt dx N geo hgeo obj (fun _ => zeros) cen
    (chunkStart nk s) len
  have key := run_chunkProg_rows (sharedIns call.shared 0 call.ins) hndI
    (sharedOut call.shared call.ins call.out) call.f (fun _ => rfl)
    (List.range' (chunkStart nk s) len) hnd
    (prepare call.ins call.out (projectMem obj cen)) hf
    (by intro i; rw [hf2]; rfl)
    (by
      rw [show (fun i => (sharedIns call.shared 0 call.ins).map
        (fun b => prepare call.ins call.out (projectMem obj cen) (b, i))) =
        fun i => [obj i, fun _ => cen i, zeros] from funext hrows]
      exact hf1) s hich
  obtain ⟨t, ht, htv⟩ := hf3 s hich
  rw [ht] at key
  have hsh : sharedIns call.shared 0 call.ins =
      [shareIn call.shared 0 0, shareIn call.shared 1 1, .caller 2] := by
    simp [call, projectCall, sharedIns, shareIn]
  have hso : sharedOut call.shared call.ins call.out = .caller 2 := by
    simp [call, projectCall, sharedOut, sharedIns, shareIn]
  have h2 : (chunkProg (sharedIns call.shared 0 call.ins)
      (sharedOut call.shared call.ins call.out) call.f (List.range' (chunkStart nk s) len)).run
      (prepare call.ins call.out (projectMem obj cen)) (.caller 2, s) = t := by
    have := congrArg (fun l => l.getD 2 zeros) key
    simpa [hsh] using this
  have hout := hrun (.caller 2, s) ⟨Or.inr hso.symm, hich⟩
  have hr : res = .caller 2 := by
    rw [hres]; exact hso
  have hfin : m' (res, s) = t := by
    rw [hm', hr]
    unfold copyBack
    rw [if_pos ⟨rfl, hs⟩]
    show m1 (sharedOut call.shared call.ins call.out, s) = t
    rw [hso]
    exact hout.trans h2
  show m' (res, s) (d + p * dx) = _
  rw [hfin, htv p hp d hdx]
  simp [zeros, cen]

/-- A result exists (for at least one slice). -/
theorem projectSino_total (cpu : Nat) (hcpu : 0 < cpu) (debug : Bool) {oy : Nat} (hoy : 0 < oy)
    (dt dx N : Nat)
    (geo : K → Nat → Nat → Segs K) (so sc : Bool) (ncore nchunk : Option Nat) (obj : Nat → Mem K)
    (center : Option (List K)) (hncore : ncore ≠ some 0) :
    ∃ result, ProjectSino cpu debug oy dt dx N geo so sc ncore nchunk obj center result := by
  have : ∃ nc nk, getNcoreNchunk cpu oy ncore nchunk = .ok (nc, nk) := by
    have hpos : 0 < ceilDiv oy (orOne (limitChunk oy nchunk)) := by
      apply ceilDiv_pos _ _ hoy
      cases limitChunk oy nchunk with
      | none => simp [orOne]
      | some c => cases c <;> simp [orOne]
    have hlc : 0 < limitCores cpu ncore := by
      cases ncore with
      | none => exact hcpu
      | some k =>
        show 0 < if k > cpu then cpu else k
        have hk : k ≠ 0 := fun e => hncore (by rw [e])
        split
        · exact hcpu
        · exact Nat.pos_of_ne_zero hk
    unfold getNcoreNchunk
    simp only
    cases limitChunk oy nchunk with
    | some c => exact ⟨_, _, rfl⟩
    | none =>
      simp only
      rw [if_neg]
      · exact ⟨_, _, rfl⟩
      · split
        · exact (ceilDiv_pos oy (orOne none) hoy (by simp [orOne])).ne'
        · omega
  obtain ⟨nc, nk, h⟩ := this
  obtain ⟨m', res, hd⟩ := distribute_jobs_total cpu debug
    (projectCall oy dt dx N geo so sc ncore nchunk) (fun _ => false)
    (projectMem obj fun s => (getCenter oy dx center).getD s 0) nc nk h
  exact ⟨_, m', res, hd, rfl⟩

theorem getCenter_default (oy dx s : Nat) (hs : s < oy) :
    (getCenter (K := K) oy dx none).getD s 0 = (dx : K) / 2 := by
  simp [getCenter, List.getD_eq_getElem?_getD, hs]

theorem getCenter_scalar (oy dx s : Nat) (c : K) (hs : s < oy) :
    (getCenter oy dx (some [c])).getD s 0 = c := by
  simp [getCenter, List.getD_eq_getElem?_getD, hs]

theorem chunkStart_le (nk s : Nat) : chunkStart nk s ≤ s := by
  unfold chunkStart
  split
  · exact le_refl s
  · exact Nat.div_mul_le_self s nk

/-- **C62** (partial: all slices have the same centre): the result is the same for every `ncore`,
`nchunk`, machine and schedule, and uses the centre that was passed. -/
theorem project_own_center_partial {cpu : Nat} {debug : Bool} {oy dt dx N : Nat}
    {geo : K → Nat → Nat → Segs K} {so sc : Bool} {ncore nchunk : Option Nat} {obj : Nat → Mem K}
    {center : Option (List K)} {result : Arr3 K} (c : K)
    (hc : ∀ s < oy, (getCenter oy dx center).getD s 0 = c)
    (hgeo : ∀ c p d, ∀ e ∈ geo c p d, e.1 < N)
    (h : ProjectSino cpu debug oy dt dx N geo so sc ncore nchunk obj center result) :
    ∀ s < oy, ∀ p < dt, ∀ d < dx, result.get s p d = lineSum N 0 (geo c p d) (obj s) := by
  obtain ⟨_, _, _, nc, nk, _, hv⟩ := projectSino_value hgeo h
  intro s hs p hp d hd
  rw [hv s hs p hp d hd, hc _ (lt_of_le_of_lt (chunkStart_le nk s) hs)]

/-- **C62** (partial: chunks of one slice): with `nchunk=1` (or 0) every slice has its own
centre. -/
theorem project_own_center_chunk_partial {cpu : Nat} {debug : Bool} {oy dt dx N : Nat}
    {geo : K → Nat → Nat → Segs K} {so sc : Bool} {ncore : Option Nat} {nchunk : Nat}
    {obj : Nat → Mem K} {center : Option (List K)} {result : Arr3 K} (hn : nchunk ≤ 1)
    (hgeo : ∀ c p d, ∀ e ∈ geo c p d, e.1 < N)
    (h : ProjectSino cpu debug oy dt dx N geo so sc ncore (some nchunk) obj center result) :
    ∀ s < oy, ∀ p < dt, ∀ d < dx,
      result.get s p d = lineSum N 0 (geo ((getCenter oy dx center).getD s 0) p d) (obj s) := by
  obtain ⟨_, _, _, nc, nk, hnk, hv⟩ := projectSino_value hgeo h
  intro s hs p hp d hd
  rw [hv s hs p hp d hd]
  have : nk ≤ 1 := by
    unfold getNcoreNchunk limitChunk at hnk
    simp only at hnk
    by_cases h1 : nchunk ≠ 0 ∧ nchunk > oy
    · rw [if_pos h1] at hnk
      simp only [Except.ok.injEq, Prod.mk.injEq] at hnk
      omega
    · rw [if_neg h1] at hnk
      simp only [Except.ok.injEq, Prod.mk.injEq] at hnk
      omega
  have : chunkStart nk s = s := by
    unfold chunkStart
    split
    · rfl
    · have : nk = 1 := by omega
      subst this
      simp
  rw [this]

/-- **C62** (refutation): whenever a different centre changes some line integral of an object
there are two calls that differ only in `nchunk` and return different projections. -/
theorem project_depends_on_nchunk {dt dx N : Nat} {geo : K → Nat → Nat → Segs K}
    (hgeo : ∀ c p d, ∀ e ∈ geo c p d, e.1 < N) {c₀ c₁ : K} {p d : Nat} (hp : p < dt) (hd : d < dx)
    {u : Mem K} (hne : lineSum N 0 (geo c₀ p d) u ≠ lineSum N 0 (geo c₁ p d) u) :
    ∃ r₁ r₂ : Arr3 K,
      ProjectSino 4 false 2 dt dx N geo true true none (some 1) (fun _ => u) (some [c₀, c₁]) r₁ ∧
      ProjectSino 4 false 2 dt dx N geo true true none (some 2) (fun _ => u) (some [c₀, c₁]) r₂ ∧
      r₁.get 1 p d ≠ r₂.get 1 p d := by
  obtain ⟨r₁, h₁⟩ := projectSino_total 4 (by simp) false (oy := 2) (by simp) dt dx N geo true true
    none (some 1) (fun _ => u) (some [c₀, c₁]) (by simp)
  obtain ⟨r₂, h₂⟩ := projectSino_total 4 (by simp) false (oy := 2) (by simp) dt dx N geo true true
    none (some 2) (fun _ => u) (some [c₀, c₁]) (by simp)
  refine ⟨r₁, r₂, h₁, h₂, ?_⟩
  rw [project_own_center_chunk_partial (le_refl 1) hgeo h₁ 1 (by simp) p hp d hd]
  obtain ⟨_, _, _, nc, nk, hnk, hv⟩ := projectSino_value hgeo h₂
  rw [hv 1 (by simp) p hp d hd]
  have : nk = 2 := by
    have e : getNcoreNchunk 4 2 none (some 2) = .ok (1, 2) := by decide
    rw [e] at hnk
    simp only [Except.ok.injEq, Prod.mk.injEq] at hnk
    exact hnk.2.symm
  subst this
  simpa [getCenter, chunkStart] using hne.symm

/-- A concrete case for `project_depends_on_nchunk`: the tracer at angle 0 on a 2x2 image, centres
1/2 and 1 (over the rationals). -/
example : lineSum 4 0 (((Ray.trace (fun a b => |a| + |b|) (Ray.capsRecon 2 2) 0 2 2
        (Ray.rayY 2 0 (Ray.mov 2 (1/2 : ℚ))) 0 1).getD []).map fun e => (e.1.toNat, e.2))
      (fun n => (n : ℚ)) ≠
    lineSum 4 0 (((Ray.trace (fun a b => |a| + |b|) (Ray.capsRecon 2 2) 0 2 2
        (Ray.rayY 2 0 (Ray.mov 2 (1 : ℚ))) 0 1).getD []).map fun e => (e.1.toNat, e.2))
      (fun n => (n : ℚ)) := by
  decide +kernel

end Generic

/-! ## The complete function -/

theorem tracerGeom_ok (rx rz dx : Nat) (center theta : Nat → ℝ) (s p d : Nat) :
    SegsOk (rx * rz) (tracerGeom rx rz dx center theta s p d) := by
  unfold tracerGeom
  obtain ⟨segs, h1, _, h3⟩ := Ray.rayTrace_safe rx rz dx (center s) (theta p) d
  rw [h1]
  intro e he
  simp only [Option.getD_some, List.mem_map] at he
  obtain ⟨f, hf, rfl⟩ := he
  obtain ⟨h4, h5, h6⟩ := h3 f hf
  refine ⟨?_, h6⟩
  simp only
  omega

/-- The line integral that element `(s, p, d)` of the projections should have (specification). -/
noncomputable def rayIntegral (ox oz dx : Nat) (theta : List ℝ) (c : ℝ) (p d : Nat) (u : Mem ℝ) : ℝ :=
  lineSum (ox * oz) 0 (tracerGeom ox oz dx (fun _ => c) (fun p => theta.getD p 0) 0 p d) u

/-- **C31**: what `project` returns for the default centre or one centre for all slices, in all
four combinations of emission/transmission and data order. -/
theorem project_spec {cpu : Nat} {debug : Bool} {oy ox oz : Nat} {obj : Nat → Mem ℝ}
    {theta : List ℝ} {center : Option (List ℝ)} {emission : Bool} {pad : Pad} {sino : Bool}
    {so sc : Bool} {ncore nchunk : Option Nat} {result : Arr3 ℝ}
    (h : Project cpu debug oy ox oz obj theta center emission pad sino so sc ncore nchunk result)
    (hc : center = none ∨ ∃ c, center = some [c]) :
    ∃ dx, projectWidth ox oz pad = .ok dx ∧
      (result.d0, result.d1, result.d2) =
        (if sino then (oy, theta.length, dx) else (theta.length, oy, dx)) ∧
      ∀ s < oy, ∀ p < theta.length, ∀ d < dx,
        (if sino then result.get s p d else result.get p s d) =
          if emission then rayIntegral ox oz dx theta ((getCenter oy dx center).getD 0 0) p d (obj s)
          else Real.exp (-rayIntegral ox oz dx theta ((getCenter oy dx center).getD 0 0) p d (obj s)) := by
  obtain ⟨dx, sn, hw, hs, rfl⟩ := h
  obtain ⟨h0, h1, h2, _⟩ := projectSino_value
    (fun c p d e he => (tracerGeom_ok ox oz dx (fun _ => c) _ 0 p d e he).1) hs
  refine ⟨dx, hw, ?_, ?_⟩
  · cases sino <;> cases emission <;> simp [projectPost, swap01, h0, h1, h2]
  · have hall : ∀ s < oy, (getCenter oy dx center).getD s 0 = (getCenter oy dx center).getD 0 0 := by
      intro s hs'
      rcases hc with rfl | ⟨c, rfl⟩
      · rw [getCenter_default _ _ _ hs', getCenter_default _ _ _ (by omega)]
      · rw [getCenter_scalar _ _ _ _ hs', getCenter_scalar _ _ _ _ (by omega)]
    have hv := project_own_center_partial _ hall
      (fun c p d e he => (tracerGeom_ok ox oz dx (fun _ => c) _ 0 p d e he).1) hs
    intro s hs p hp d hd
    have := hv s hs p hp d hd
    cases sino <;> cases emission <;> simp [projectPost, swap01, this, rayIntegral]

/-- `project` returns something (for at least one slice and `ncore` not 0). -/
theorem project_total (cpu : Nat) (hcpu : 0 < cpu) (debug : Bool) {oy : Nat} (hoy : 0 < oy)
    (ox oz : Nat) (obj : Nat → Mem ℝ) (theta : List ℝ) (center : Option (List ℝ)) (emission : Bool)
    {pad : Pad} (hpad : pad ≠ .other) (sino so sc : Bool) (ncore nchunk : Option Nat)
    (hncore : ncore ≠ some 0) :
    ∃ result, Project cpu debug oy ox oz obj theta center emission pad sino so sc ncore nchunk
      result := by
  have : ∃ dx, projectWidth ox oz pad = .ok dx := by
    cases pad with
    | yes => exact ⟨_, rfl⟩
    | no => exact ⟨_, rfl⟩
    | other => exact absurd rfl hpad
  obtain ⟨dx, hdx⟩ := this
  obtain ⟨r, hr⟩ := projectSino_total cpu hcpu debug hoy theta.length dx (ox * oz)
    (fun c => tracerGeom ox oz dx (fun _ => c) (fun p => theta.getD p 0) 0) so sc ncore nchunk obj
    center hncore
  exact ⟨_, dx, r, hdx, hr, rfl⟩

/-- **C31**: `rayIntegral` is linear, monotone from zero, and depends only on the pixels of its
slice. -/
theorem rayIntegral_linear (ox oz dx : Nat) (theta : List ℝ) (c : ℝ) (p d : Nat) (a b : ℝ)
    (u v : Mem ℝ) :
    rayIntegral ox oz dx theta c p d (fun i => a * u i + b * v i) =
      a * rayIntegral ox oz dx theta c p d u + b * rayIntegral ox oz dx theta c p d v :=
  lineSum_add _ a b u v

theorem rayIntegral_nonneg (ox oz dx : Nat) (theta : List ℝ) (c : ℝ) (p d : Nat) (u : Mem ℝ)
    (hu : ∀ n < ox * oz, 0 ≤ u n) : 0 ≤ rayIntegral ox oz dx theta c p d u := by
  apply lineSum_nonneg (tracerGeom_ok ox oz dx _ _ 0 p d)
  intro n hn
  simpa using hu n hn

theorem rayIntegral_congr (ox oz dx : Nat) (theta : List ℝ) (c : ℝ) (p d : Nat) (u v : Mem ℝ)
    (huv : ∀ n < ox * oz, u n = v n) :
    rayIntegral ox oz dx theta c p d u = rayIntegral ox oz dx theta c p d v := by
  apply lineSum_congr
  intro e he
  have := (tracerGeom_ok ox oz dx (fun _ => c) _ 0 p d e he).1
  simpa using huv e.1 this

/-- **C31** for the Python function: linear in the object (emission data), for any combination of
the other arguments, number of cores and schedules in the three calls. -/
theorem project_linear_py {cpu : Nat} {debug : Bool} {oy ox oz : Nat} {u v : Nat → Mem ℝ} {a b : ℝ}
    {theta : List ℝ} {center : Option (List ℝ)} {pad : Pad}
    {n₁ k₁ n₂ k₂ n₃ k₃ : Option Nat} {so₁ sc₁ so₂ sc₂ so₃ sc₃ : Bool} {r₁ r₂ r₃ : Arr3 ℝ}
    (hc : center = none ∨ ∃ c, center = some [c])
    (h₁ : Project cpu debug oy ox oz u theta center true pad true so₁ sc₁ n₁ k₁ r₁)
    (h₂ : Project cpu debug oy ox oz v theta center true pad true so₂ sc₂ n₂ k₂ r₂)
    (h₃ : Project cpu debug oy ox oz (fun s i => a * u s i + b * v s i) theta center true pad true
      so₃ sc₃ n₃ k₃ r₃) :
    ∀ s < oy, ∀ p < theta.length, ∀ d < r₁.d2,
      r₃.get s p d = a * r₁.get s p d + b * r₂.get s p d := by
  obtain ⟨dx₁, w₁, e₁, v₁⟩ := project_spec h₁ hc
  obtain ⟨dx₂, w₂, e₂, v₂⟩ := project_spec h₂ hc
  obtain ⟨dx₃, w₃, e₃, v₃⟩ := project_spec h₃ hc
  rw [w₁] at w₂ w₃
  cases w₂
  cases w₃
  intro s hs p hp d hd
  have : r₁.d2 = dx₁ := by simpa using congrArg (fun t => t.2.2) e₁
  rw [this] at hd
  have a₁ := v₁ s hs p hp d hd
  have a₂ := v₂ s hs p hp d hd
  have a₃ := v₃ s hs p hp d hd
  simp only [if_true] at a₁ a₂ a₃
  rw [a₁, a₂, a₃, rayIntegral_linear]

/-- **C31** for the Python function: positive, and slice `s` of the result depends only on slice
`s` of the object. -/
theorem project_slicewise_py {cpu : Nat} {debug : Bool} {oy ox oz : Nat} {u v : Nat → Mem ℝ}
    {theta : List ℝ} {center : Option (List ℝ)} {pad : Pad} {emission sino : Bool}
    {n₁ k₁ n₂ k₂ : Option Nat} {so₁ sc₁ so₂ sc₂ : Bool} {r₁ r₂ : Arr3 ℝ}
    (hc : center = none ∨ ∃ c, center = some [c])
    (h₁ : Project cpu debug oy ox oz u theta center emission pad sino so₁ sc₁ n₁ k₁ r₁)
    (h₂ : Project cpu debug oy ox oz v theta center emission pad sino so₂ sc₂ n₂ k₂ r₂)
    {s : Nat} (hs : s < oy) (huv : ∀ n < ox * oz, u s n = v s n) :
    ∀ p < theta.length, ∀ d < r₁.d2,
      (if sino then r₁.get s p d else r₁.get p s d) =
        (if sino then r₂.get s p d else r₂.get p s d) := by
  obtain ⟨dx₁, w₁, e₁, v₁⟩ := project_spec h₁ hc
  obtain ⟨dx₂, w₂, e₂, v₂⟩ := project_spec h₂ hc
  rw [w₁] at w₂
  cases w₂
  intro p hp d hd
  have : r₁.d2 = dx₁ := by
    cases sino <;> simpa using congrArg (fun t => t.2.2) e₁
  rw [this] at hd
  rw [v₁ s hs p hp d hd, v₂ s hs p hp d hd, rayIntegral_congr _ _ _ _ _ _ _ (u s) (v s) huv]

/-- **C31**: emission data of a non-negative object are non-negative; transmission data lie in
`(0, 1]`. -/
theorem project_range_py {cpu : Nat} {debug : Bool} {oy ox oz : Nat} {u : Nat → Mem ℝ}
    {theta : List ℝ} {center : Option (List ℝ)} {pad : Pad} {emission : Bool}
    {n₁ k₁ : Option Nat} {so₁ sc₁ : Bool} {r : Arr3 ℝ}
    (hc : center = none ∨ ∃ c, center = some [c])
    (h : Project cpu debug oy ox oz u theta center emission pad true so₁ sc₁ n₁ k₁ r)
    (hu : ∀ s < oy, ∀ n < ox * oz, 0 ≤ u s n) :
    ∀ s < oy, ∀ p < theta.length, ∀ d < r.d2,
      if emission then 0 ≤ r.get s p d else 0 < r.get s p d ∧ r.get s p d ≤ 1 := by
  obtain ⟨dx, w, e, v⟩ := project_spec h hc
  intro s hs p hp d hd
  have : r.d2 = dx := by simpa using congrArg (fun t => t.2.2) e
  rw [this] at hd
  have h1 := v s hs p hp d hd
  have h2 := rayIntegral_nonneg ox oz dx theta ((getCenter oy dx center).getD 0 0) p d (u s) (hu s hs)
  simp only [if_true] at h1
  cases emission
  · simp only [Bool.false_eq_true, if_false] at h1 ⊢
    rw [h1]
    exact ⟨Real.exp_pos _, Real.exp_le_one_iff.mpr (by linarith)⟩
  · simp only [if_true] at h1 ⊢
    rw [h1]
    exact h2

/-! ## Padding -/

/-- **C51**: with `pad=True` and the default centre no part of the object leaves the detector: for
every angle and every point of the `ox x oz` cross-section, some detector pixel (of unit width,
centred at the ray position used by the tracer) covers its projection.  The ray at position `y` is
the set of points with `z cos θ - x sin θ = y` (`Ray.OnRay`). -/
theorem pad_covers {ox oz dx : Nat} (hw : projectWidth ox oz .yes = .ok dx) (θ x z : ℝ)
    (hx : |x| ≤ (ox : ℝ) / 2) (hz : |z| ≤ (oz : ℝ) / 2) :
    ∃ d < dx, |z * Real.cos θ - x * Real.sin θ - Ray.rayY dx d (Ray.mov dx ((dx : ℝ) / 2))| ≤ 1 / 2 := by
  have hdx : (ox : ℝ) ^ 2 + (oz : ℝ) ^ 2 ≤ ((dx : ℝ) - 2) ^ 2 ∧ (2 : ℝ) ≤ dx := by
    simp only [projectWidth, Except.ok.injEq] at hw
    rw [← hw]
    unfold roundToEven
    have h1 := Nat.le_ceil ((Real.sqrt ((ox : ℝ) * ox + oz * oz) + 2) / 2)
    have h0 := Real.sqrt_nonneg ((ox : ℝ) * ox + oz * oz)
    have h2 := Real.mul_self_sqrt (show 0 ≤ (ox : ℝ) * ox + oz * oz by positivity)
    push_cast
    constructor
    · nlinarith
    · linarith
  obtain ⟨hd1, hd2⟩ := hdx
  set t : ℝ := z * Real.cos θ - x * Real.sin θ with ht
  have ht2 : t ^ 2 ≤ (((dx : ℝ) - 2) / 2) ^ 2 := by
    have hcs := Real.sin_sq_add_cos_sq θ
    have h1 : x ^ 2 ≤ ((ox : ℝ) / 2) ^ 2 := by
      rw [← sq_abs x]
      exact pow_le_pow_left₀ (abs_nonneg x) hx 2
    have h2 : z ^ 2 ≤ ((oz : ℝ) / 2) ^ 2 := by
      rw [← sq_abs z]
      exact pow_le_pow_left₀ (abs_nonneg z) hz 2
    have h3 : t ^ 2 ≤ x ^ 2 + z ^ 2 := by
      have : x ^ 2 + z ^ 2 - t ^ 2 = (x * Real.cos θ + z * Real.sin θ) ^ 2 := by
        have e : x ^ 2 + z ^ 2 = (x ^ 2 + z ^ 2) * (Real.sin θ ^ 2 + Real.cos θ ^ 2) := by
          rw [hcs, mul_one]
        rw [e, ht]; ring
      nlinarith [sq_nonneg (x * Real.cos θ + z * Real.sin θ)]
    nlinarith
  have ht3 : |t| ≤ ((dx : ℝ) - 2) / 2 := abs_le_of_sq_le_sq ht2 (by linarith)
  have hmov : 0 ≤ Ray.mov dx ((dx : ℝ) / 2) ∧ Ray.mov dx ((dx : ℝ) / 2) ≤ 1 / 100 := by
    unfold Ray.mov
    split <;> constructor <;> linarith
  obtain ⟨hm1, hm2⟩ := hmov
  obtain ⟨ht4, ht5⟩ := abs_le.mp ht3
  set m := Ray.mov dx ((dx : ℝ) / 2) with hm
  -- the nearest pixel
  have hw0 : 0 ≤ t - m + (dx : ℝ) / 2 := by linarith
  refine ⟨⌊t - m + (dx : ℝ) / 2⌋₊, ?_, ?_⟩
  · rw [Nat.floor_lt hw0]
    linarith
  · have h1 := Nat.floor_le hw0
    have h2 := Nat.lt_floor_add_one (t - m + (dx : ℝ) / 2)
    unfold Ray.rayY
    rw [abs_le]
    constructor <;> linarith

/-- **C51**: with `pad=True` the width is even, at least the diagonal of the cross-section plus two,
and no larger than needed for that (the next smaller even number is too small). -/
theorem pad_width {ox oz dx : Nat} (hw : projectWidth ox oz .yes = .ok dx) :
    2 ∣ dx ∧ Real.sqrt ((ox : ℝ) ^ 2 + (oz : ℝ) ^ 2) + 2 ≤ dx ∧
      (dx : ℝ) < Real.sqrt ((ox : ℝ) ^ 2 + (oz : ℝ) ^ 2) + 4 := by
  simp only [projectWidth, Except.ok.injEq] at hw
  rw [pow_two, pow_two, ← hw]
  unfold roundToEven
  have h0 := Real.sqrt_nonneg ((ox : ℝ) * ox + oz * oz)
  have h1 := Nat.le_ceil ((Real.sqrt ((ox : ℝ) * ox + oz * oz) + 2) / 2)
  have h2 := Nat.ceil_lt_add_one (a := (Real.sqrt ((ox : ℝ) * ox + oz * oz) + 2) / 2) (by linarith)
  refine ⟨Dvd.intro_left _ rfl, ?_, ?_⟩ <;> push_cast <;> linarith

/-- **C51**: one centre per slice when the centre is omitted, a scalar, or one per slice. -/
theorem getCenter_length {K : Type} [Field K] (oy dx : Nat) (c : Option (List K))
    (h : ∀ cs, c = some cs → cs.length = 1 ∨ cs.length = oy) :
    (getCenter oy dx c).length = oy := by
  cases c with
  | none => simp [getCenter]
  | some cs =>
    by_cases h1 : cs.length = 1
    · simp [getCenter, h1]
    · simp only [getCenter, if_neg h1]
      exact (h cs rfl).resolve_left h1

/-- A concrete case: a point of a 3 x 4 object. -/
example : |(1 : ℝ)| ≤ ((3 : Nat) : ℝ) / 2 ∧ |(-2 : ℝ)| ≤ ((4 : Nat) : ℝ) / 2 := by
  constructor <;> norm_num

end Tomopy.Sim
