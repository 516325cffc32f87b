import Verif.Recon.Props
import Verif.Iter.AlonePml
import Verif.Iter.Tracer

/-! # The C functions as reconstruction kernels (C170)

`recon` hands blocks of slices to the C functions.  C08 takes for granted that these treat every slice of a block
on its own; here the models of the C functions themselves are used. -/

set_option linter.unusedSectionVars false

namespace Tomopy.Recon

open Tomopy.Par Tomopy.Mproc Tomopy.Iter

variable {K : Type} [Field K] [LinearOrder K] [IsStrictOrderedRing K]

/-! ## Model -/

/-- A C reconstruction function: sizes, rays per slice, data and image arrays
(`source/libtomo/recon/osem.c:49-52` and the other functions of that directory); `none` is a division by zero or
another operation without a real result. -/
abbrev Run (K : Type) := Dims → Geom K → Mem K → Mem K → Option (Mem K)

/-- The rows of a block as the flat C array of its contiguous view, `w` elements per slice
(`source/tomopy/recon/algorithm.py:430,452`, `source/tomopy/util/extern/recon.py:312-333`).  A row without
real values (result of an earlier `none`) is read as zeros. -/
def blockFlat (w : Nat) (rows : List (Option (Mem K))) : Mem K := fun n =>
  ((rows.getD (n / w) none).getD zeros) (n % w)

/-- A row holds `w` numbers; addresses beyond are not part of it
(`source/tomopy/recon/algorithm.py:430`, `recon[slc]`). -/
def cut (w : Nat) (m : Mem K) : Mem K := fun n => if n < w then m n else 0

/-- The C function on a block of slices (`source/tomopy/util/extern/recon.py:312-333` and the other wrappers;
`source/tomopy/recon/algorithm.py:430,452`): `recon[slc]` is written in place.  `geo c` are the rays for centre
`c`.  Simplification: if anything in the block has no real value, the whole block counts as `none`. -/
def cKernel (run : Run K) (dt dx N : Nat) (geo : K → Nat → Nat → Segs K) : Kernel (Option (Mem K)) :=
  fun rows =>
    let r := run ⟨rows.length, dt, dx, N⟩ (fun s => geo (blockFlat 1 (rows.map fun r => r.2.1) s))
      (blockFlat (dt * dx) (rows.map fun r => r.1)) (blockFlat N (rows.map fun r => r.2.2))
    (List.range rows.length).map fun s => r.map fun m => cut N fun n => m (n + s * N)

/-- `tikh` as called by `recon`: the whole array `reg_data`, whatever the block
(`source/tomopy/util/extern/recon.py:503-525`, `source/tomopy/recon/algorithm.py:430,452`). -/
def tikhRun (ngx ngy num_iter : Nat) (r0 reg0 reg1 : K) (regData : Mem K) : Run K := fun D g data recon =>
  tikh D ngx ngy g data num_iter r0 reg0 reg1 regData recon

/-- The elements of `reg_data` that `tikh` reads for a block of `dy` slices
(`source/libtomo/recon/tikh.c:189-195`). -/
def tikhRegReads (dy ngx ngy : Nat) : List Nat :=
  (List.range dy).flatMap fun s => (List.range ngy).flatMap fun iy => (List.range ngx).map fun ix =>
    s * ngx * ngy + iy * ngx + ix

/-! ## Specification -/

/-- Reconstruction of one slice: the C function called for this slice only, with its sinogram, its centre and
its initial image. -/
def ownRun (run : Run K) (dt dx N : Nat) (geo : K → Nat → Nat → Segs K) (t c x : Option (Mem K)) :
    Option (Mem K) :=
  (run ⟨1, dt, dx, N⟩ (fun _ => geo (c.getD zeros 0)) (t.getD zeros) (x.getD zeros)).map (cut N)

/-- A C function that treats slices on their own. -/
def RunAlone (dt dx N : Nat) (run : Run K) : Prop :=
  ∀ (dy : Nat) (g : Geom K), GeomOk ⟨dy, dt, dx, N⟩ g → ∀ (data recon : Mem K) (data1 recon1 : Nat → Mem K),
    DatAll ⟨dy, dt, dx, N⟩ data data1 → SameAll ⟨dy, dt, dx, N⟩ recon recon1 →
    Alone ⟨dy, dt, dx, N⟩ (run ⟨dy, dt, dx, N⟩ g data recon) fun s =>
      run ⟨1, dt, dx, N⟩ (geoAt s g) (data1 s) (recon1 s)

/-! ## Proofs -/

theorem cKernel_length (run : Run K) (dt dx N : Nat) (geo : K → Nat → Nat → Segs K)
    (rows : List (Option (Mem K) × Option (Mem K) × Option (Mem K))) :
    (cKernel run dt dx N geo rows).length = rows.length := by
  simp [cKernel]

theorem blockFlat_at {w : Nat} (rows : List (Option (Mem K))) {s n : Nat} (hn : n < w) :
    blockFlat w rows (n + s * w) = (rows.getD s none).getD zeros n := by
  unfold blockFlat
  rw [show (n + s * w) / w = s from by
      rw [Nat.mul_comm, Nat.add_mul_div_left _ _ (by omega), Nat.div_eq_of_lt hn, Nat.zero_add],
    show (n + s * w) % w = n from by rw [Nat.add_mul_mod_self_right, Nat.mod_eq_of_lt hn]]

theorem blockFlat_center (rows : List (Option (Mem K))) (s : Nat) :
    blockFlat 1 rows s = (rows.getD s none).getD zeros 0 := by
  have := blockFlat_at (w := 1) rows (s := s) (n := 0) one_pos
  rwa [Nat.mul_one, Nat.zero_add] at this

theorem cut_congr {w : Nat} {a b : Mem K} (h : ∀ n < w, a n = b n) : cut w a = cut w b := by
  funext n
  unfold cut
  split
  · exact h n ‹_›
  · rfl

theorem getD_map_row {α β : Type} (rows : List α) (f : α → Option β) {s : Nat} (hs : s < rows.length) :
    (rows.map f).getD s none = f rows[s] := by
  rw [List.getD_eq_getElem?_getD, List.getElem?_map, List.getElem?_eq_getElem hs]
  rfl

/-- The centre of position `s` of a block. -/
theorem center_at (rows : List (Option (Mem K) × Option (Mem K) × Option (Mem K))) {s : Nat}
    (hs : s < rows.length) :
    blockFlat 1 (rows.map fun r => r.2.1) s = rows[s].2.1.getD zeros 0 := by
  rw [blockFlat_center, getD_map_row _ _ hs]

/-- The kernel from what the function does on the block; `G s` is the single call that belongs to position `s`. -/
theorem kernel_of_alone {dt dx N : Nat} {run : Run K} {geo : K → Nat → Nat → Segs K}
    {rows : List (Option (Mem K) × Option (Mem K) × Option (Mem K))} {G : Nat → Mem K → Mem K → Option (Mem K)}
    (h : ∀ data recon : Mem K, ∀ data1 recon1 : Nat → Mem K, DatAll ⟨rows.length, dt, dx, N⟩ data data1 →
      SameAll ⟨rows.length, dt, dx, N⟩ recon recon1 →
      Alone ⟨rows.length, dt, dx, N⟩
        (run ⟨rows.length, dt, dx, N⟩ (fun s => geo (blockFlat 1 (rows.map fun r => r.2.1) s)) data recon)
        fun s => G s (data1 s) (recon1 s))
    {F : Nat → Option (Mem K)}
    (hF : ∀ s (hs : s < rows.length), F s = (G s (rows[s].1.getD zeros) (rows[s].2.2.getD zeros)).map (cut N))
    (hdef : ∀ s < rows.length, F s ≠ none) :
    cKernel run dt dx N geo rows = (List.range rows.length).map F := by
  obtain ⟨h1, h2⟩ := h (blockFlat (dt * dx) (rows.map fun r => r.1)) (blockFlat N (rows.map fun r => r.2.2))
    (fun s => ((rows.map fun r => r.1).getD s none).getD zeros)
    (fun s => ((rows.map fun r => r.2.2).getD s none).getD zeros)
    (fun s _ n hn => (blockFlat_at _ hn).symm) (fun s _ n hn => (blockFlat_at _ hn).symm)
  have hG : ∀ s (hs : s < rows.length), (G s (((rows.map fun r => r.1).getD s none).getD zeros)
      (((rows.map fun r => r.2.2).getD s none).getD zeros)).map (cut N) = F s := by
    intro s hs
    rw [getD_map_row _ _ hs, getD_map_row _ _ hs, hF s hs]
  unfold cKernel
  simp only
  cases e : run ⟨rows.length, dt, dx, N⟩ (fun s => geo (blockFlat 1 (rows.map fun r => r.2.1) s))
      (blockFlat (dt * dx) (rows.map fun r => r.1)) (blockFlat N (rows.map fun r => r.2.2)) with
  | none =>
    exfalso
    obtain ⟨s, hs, hn⟩ := h1.mp e
    refine hdef s hs ?_
    rw [← hG s hs]
    exact congrArg (Option.map (cut N)) hn
  | some out =>
    refine List.map_congr_left fun s hs => ?_
    obtain ⟨o, ho, hsame⟩ := h2 out e s (List.mem_range.mp hs)
    rw [← hG s (List.mem_range.mp hs)]
    refine Eq.trans ?_ (congrArg (Option.map (cut N)) ho).symm
    exact congrArg some (cut_congr fun n hn => (hsame n hn).symm)

theorem range_map_rows {α β : Type} (rows : List α) (f : Nat → β) (f' : α → β)
    (h : ∀ s (hs : s < rows.length), f s = f' rows[s]) : (List.range rows.length).map f = rows.map f' := by
  refine List.ext_getElem (by simp) fun s hs1 hs2 => ?_
  rw [List.getElem_map, List.getElem_map, List.getElem_range]
  exact h s (by simpa using hs1)

/-- **C170** A block: if the function is defined for each slice of it alone, the result is slice by slice that
of the calls for single slices (the kernel is the `localKernel` of C08). -/
theorem kernel_own {dt dx N : Nat} {run : Run K} (hrun : RunAlone dt dx N run)
    {geo : K → Nat → Nat → Segs K} (hgeo : ∀ c, ∀ p < dt, ∀ d < dx, SegsOk N (geo c p d))
    {rows : List (Option (Mem K) × Option (Mem K) × Option (Mem K))}
    (hdef : ∀ r ∈ rows, ownRun run dt dx N geo r.1 r.2.1 r.2.2 ≠ none) :
    cKernel run dt dx N geo rows = localKernel (ownRun run dt dx N geo) rows := by
  rw [kernel_of_alone (G := fun s data recon => run ⟨1, dt, dx, N⟩
      (geoAt s fun s => geo (blockFlat 1 (rows.map fun r => r.2.1) s)) data recon)
    (F := fun s => (rows[s]?).bind fun r => ownRun run dt dx N geo r.1 r.2.1 r.2.2)]
  · refine range_map_rows rows _ _ fun s hs => ?_
    rw [List.getElem?_eq_getElem hs]
    rfl
  · intro data recon data1 recon1 hd hr
    exact hrun rows.length _ (fun s _ p hp d hd => hgeo _ p hp d hd) _ _ data1 recon1 hd hr
  · intro s hs
    rw [List.getElem?_eq_getElem hs]
    unfold geoAt
    simp only [center_at rows hs]
    rfl
  · intro s hs
    simp only [List.getElem?_eq_getElem hs]
    exact hdef rows[s] (List.getElem_mem hs)

/-- **C170** `art` on a block is the `firstCenterKernel` of C08: own sinogram, own initial image, the centre of the
first slice of the block. -/
theorem art_kernel {dt dx N : Nat} (num_iter : Nat) {geo : K → Nat → Nat → Segs K}
    (hgeo : ∀ c, ∀ p < dt, ∀ d < dx, SegsOk N (geo c p d))
    (rows : List (Option (Mem K) × Option (Mem K) × Option (Mem K))) :
    cKernel (fun D g data recon => some (art D g data num_iter recon)) dt dx N geo rows =
      firstCenterKernel (ownRun (fun D g data recon => some (art D g data num_iter recon)) dt dx N geo) rows := by
  cases rows with
  | nil => rfl
  | cons r0 rs =>
    rw [kernel_of_alone (rows := r0 :: rs) (G := fun _ data recon => some (art ⟨1, dt, dx, N⟩
        (geoAt 0 fun s => geo (blockFlat 1 ((r0 :: rs).map fun r => r.2.1) s)) data num_iter recon))
      (F := fun s => ((r0 :: rs)[s]?).bind fun r =>
        ownRun (fun D g data recon => some (art D g data num_iter recon)) dt dx N geo r.1 r0.2.1 r.2.2)]
    · rw [firstCenterKernel]
      refine range_map_rows (r0 :: rs) _ _ fun s hs => ?_
      rw [List.getElem?_eq_getElem hs]
      rfl
    · intro data recon data1 recon1 hd hr
      refine alone_of ⟨fun h => (by cases h), fun r' h => ?_⟩
      cases h
      exact ⟨_, fun _ _ => rfl, fun s hs => art_alone (D := ⟨(r0 :: rs).length, dt, dx, N⟩)
        (fun p hp d hd e he => (hgeo _ p hp d hd e he).1) hs (hd s hs) num_iter (hr s hs)⟩
    · intro s hs
      rw [List.getElem?_eq_getElem hs]
      unfold geoAt
      simp only [center_at (r0 :: rs) (show 0 < (r0 :: rs).length by simp)]
      rfl
    · intro s hs
      simp only [List.getElem?_eq_getElem hs]
      exact fun h => (by cases h)

/-- **C170** `tikh` on a block: position `s` of the block uses slice `s` of `reg_data`, whatever slice of the
volume it is. -/
theorem tikh_kernel {dt dx ngx ngy num_iter : Nat} {r0 reg0 reg1 : K} {regData : Mem K}
    {geo : K → Nat → Nat → Segs K} (hgeo : ∀ c, ∀ p < dt, ∀ d < dx, SegsOk (ngx * ngy) (geo c p d))
    {rows : List (Option (Mem K) × Option (Mem K) × Option (Mem K))} {F : Nat → Option (Mem K)}
    (hF : ∀ s (hs : s < rows.length), F s = ownRun (tikhRun ngx ngy num_iter r0 reg0 reg1
      fun n => regData (n + s * (ngx * ngy))) dt dx (ngx * ngy) geo rows[s].1 rows[s].2.1 rows[s].2.2)
    (hdef : ∀ s < rows.length, F s ≠ none) :
    cKernel (tikhRun ngx ngy num_iter r0 reg0 reg1 regData) dt dx (ngx * ngy) geo rows =
      (List.range rows.length).map F := by
  refine kernel_of_alone (G := fun s data recon => tikh ⟨1, dt, dx, ngx * ngy⟩ ngx ngy
    (geoAt s fun s => geo (blockFlat 1 (rows.map fun r => r.2.1) s)) data num_iter r0 reg0 reg1
      (fun n => regData (n + s * (ngx * ngy))) recon) ?_ ?_ hdef
  · intro data recon data1 recon1 hd hr
    exact tikh_alone (D := ⟨rows.length, dt, dx, ngx * ngy⟩) rfl (fun s _ p hp d hd => hgeo _ p hp d hd) hd
      num_iter r0 reg0 reg1 (regData1 := fun s n => regData (n + s * (ngx * ngy))) (fun _ _ _ _ => rfl) hr
  · intro s hs
    rw [hF s hs]
    unfold geoAt
    simp only [center_at rows hs]
    rfl

/-- **C170** Every outcome of `recon` with such a function, for every number of cores, chunk size, thread limit
and schedule: each slice is what the C function gives when called for this slice only. -/
theorem recon_own {cpu n : Nat} (hcpu : 1 ≤ cpu) {ncore nchunk limit : Option Nat} {dt dx N : Nat}
    {run : Run K} (hrun : RunAlone dt dx N run) {geo : K → Nat → Nat → Segs K}
    (hgeo : ∀ c, ∀ p < dt, ∀ d < dx, SegsOk N (geo c p d)) {m m' : Cell → Option (Mem K)}
    (hdef : ∀ i < n, ownRun run dt dx N geo (m (tomoB, i)) (m (centerB, i)) (m (reconB, i)) ≠ none)
    (h : DistRecon cpu n ncore nchunk limit (cKernel run dt dx N geo) m m') :
    SlicewiseResult n (ownRun run dt dx N geo) m m' := by
  refine slicewise_of_blocks hcpu (cKernel_length run dt dx N geo) (ownRun run dt dx N geo) ?_ h
  intro c hc
  rw [kernel_own hrun hgeo]
  · show (c.map (trip m)).map _ = _
    rw [List.map_map]
    rfl
  · intro r hr
    obtain ⟨i, hi, rfl⟩ := List.mem_map.mp hr
    exact hdef i (hc i hi)

/-! ### The functions -/

/-- **C170** `osem`. -/
theorem osem_runAlone (dt dx N num_iter : Nat) {nb : Nat} {ind : List Nat} (hb : BlockArgs dt nb ind) :
    RunAlone (K := K) dt dx N fun D g data recon => osem D g data num_iter nb ind recon :=
  fun dy _ hg _ _ _ _ hd hr => osem_alone (D := ⟨dy, dt, dx, N⟩) hg hd num_iter hb hr

/-- **C170** `bart`. -/
theorem bart_runAlone (dt dx N num_iter : Nat) {nb : Nat} {ind : List Nat} (hb : BlockArgs dt nb ind) :
    RunAlone (K := K) dt dx N fun D g data recon => bart D g data num_iter nb ind recon :=
  fun dy _ hg _ _ _ _ hd hr => bart_alone (D := ⟨dy, dt, dx, N⟩) hg hd num_iter hb hr

/-- **C170** `mlem`. -/
theorem mlem_runAlone (dt dx N num_iter : Nat) :
    RunAlone (K := K) dt dx N fun D g data recon => mlem D g data num_iter recon :=
  fun dy _ hg _ _ _ _ hd hr => mlem_alone (D := ⟨dy, dt, dx, N⟩) hg hd num_iter hr

/-- **C170** `sirt`. -/
theorem sirt_runAlone (dt dx N num_iter : Nat) :
    RunAlone (K := K) dt dx N fun D g data recon => sirt D g data num_iter recon :=
  fun dy _ hg _ _ _ _ hd hr => sirt_alone (D := ⟨dy, dt, dx, N⟩) hg hd num_iter hr

/-- **C170** `grad`. -/
theorem grad_runAlone (dt dx ngx ngy num_iter : Nat) (r0 reg0 : K) :
    RunAlone dt dx (ngx * ngy) fun D g data recon => grad D ngx ngy g data num_iter r0 reg0 recon :=
  fun dy _ hg _ _ _ _ hd hr => grad_alone (D := ⟨dy, dt, dx, ngx * ngy⟩) rfl hg hd num_iter r0 reg0 hr

/-- **C170** `pml_quad`, `pml_hybrid`, `ospml_quad` and `ospml_hybrid`. -/
theorem ospml_runAlone (gam : ℝ → Option ℝ) (beta : ℝ) (dt dx : Nat) {ngx ngy : Nat} (hx : 2 ≤ ngx)
    (hy : 2 ≤ ngy) (num_iter : Nat) {nb : Nat} {ind : List Nat} (hb : BlockArgs dt nb ind) :
    RunAlone dt dx (ngx * ngy) fun D g data recon => ospml gam beta D ngx ngy g data num_iter nb ind recon :=
  fun dy _ hg _ _ _ _ hd hr => ospml_alone gam beta (D := ⟨dy, dt, dx, ngx * ngy⟩) rfl hx hy hg hd num_iter
    hb hr

/-- **C170** `tv`. -/
theorem tv_runAlone {lam : ℝ} (hl : 0 < lam) (dt dx ngx ngy num_iter : Nat) :
    RunAlone dt dx (ngx * ngy) fun D g data recon => tv lam D ngx ngy g data num_iter recon :=
  fun dy _ hg _ _ _ _ hd hr => tv_alone hl (D := ⟨dy, dt, dx, ngx * ngy⟩) rfl hg hd num_iter hr

/-- **C170** `fbp`. -/
theorem fbp_runAlone (dt dx N : Nat) :
    RunAlone (K := K) dt dx N fun D g data recon => some (fbp D g data recon) :=
  fun dy _ hg _ _ _ _ hd hr => alone_of ⟨fun h => (by cases h), fun r' h => (by
    cases h
    exact ⟨_, fun _ _ => rfl, fun s hs => fbp_alone (D := ⟨dy, dt, dx, N⟩) hg hs (hd s hs) (hr s hs)⟩)⟩

/-- **C170 (partial)** `tikh`, if all slices of `reg_data` are equal (such as the default, zeros). -/
theorem tikh_runAlone_partial (dt dx ngx ngy num_iter : Nat) (r0 reg0 reg1 : K) {regData : Mem K}
    (hreg : ∀ s, ∀ n < ngx * ngy, regData (n + s * (ngx * ngy)) = regData n) :
    RunAlone dt dx (ngx * ngy) (tikhRun ngx ngy num_iter r0 reg0 reg1 regData) :=
  fun dy _ hg _ _ _ _ hd hr => tikh_alone (D := ⟨dy, dt, dx, ngx * ngy⟩) rfl hg hd num_iter r0 reg0 reg1
    (regData1 := fun _ => regData) (fun s _ n hn => (hreg s n hn).symm) hr

/-- **C170 (refutation)** With a `reg_data` whose slices differ, the worker of a block uses the first slices of
`reg_data`.  Two slices: one core gives slice 1 the regularisation data of slice 1, two cores that of slice 0. -/
theorem tikh_reg_data_depends_on_ncore {dt dx ngx ngy num_iter : Nat} {r0 reg0 reg1 : K} {regData : Mem K}
    {geo : K → Nat → Nat → Segs K} (hgeo : ∀ c, ∀ p < dt, ∀ d < dx, SegsOk (ngx * ngy) (geo c p d))
    {m m1 m2 : Cell → Option (Mem K)}
    (hdef : ∀ i < 2, ∀ j ≤ i, ownRun (tikhRun ngx ngy num_iter r0 reg0 reg1
      fun n => regData (n + j * (ngx * ngy))) dt dx (ngx * ngy) geo (m (tomoB, i)) (m (centerB, i))
        (m (reconB, i)) ≠ none)
    (h1 : DistRecon 4 2 (some 1) none none
      (cKernel (tikhRun ngx ngy num_iter r0 reg0 reg1 regData) dt dx (ngx * ngy) geo) m m1)
    (h2 : DistRecon 4 2 (some 2) none none
      (cKernel (tikhRun ngx ngy num_iter r0 reg0 reg1 regData) dt dx (ngx * ngy) geo) m m2) :
    m1 (reconB, 1) = ownRun (tikhRun ngx ngy num_iter r0 reg0 reg1 fun n => regData (n + 1 * (ngx * ngy))) dt dx
      (ngx * ngy) geo (m (tomoB, 1)) (m (centerB, 1)) (m (reconB, 1)) ∧
    m2 (reconB, 1) = ownRun (tikhRun ngx ngy num_iter r0 reg0 reg1 fun n => regData (n + 0 * (ngx * ngy))) dt dx
      (ngx * ngy) geo (m (tomoB, 1)) (m (centerB, 1)) (m (reconB, 1)) := by
  obtain ⟨e1, e2⟩ := two_slices_blocks (cKernel_length _ dt dx (ngx * ngy) geo) h1 h2
  rw [tikh_kernel hgeo (F := fun s => ownRun (tikhRun ngx ngy num_iter r0 reg0 reg1
    fun n => regData (n + s * (ngx * ngy))) dt dx (ngx * ngy) geo (m (tomoB, s)) (m (centerB, s))
      (m (reconB, s)))] at e1
  rw [tikh_kernel hgeo (F := fun s => ownRun (tikhRun ngx ngy num_iter r0 reg0 reg1
    fun n => regData (n + s * (ngx * ngy))) dt dx (ngx * ngy) geo (m (tomoB, 1)) (m (centerB, 1))
      (m (reconB, 1)))] at e2
  · simp only [List.length_cons, List.length_nil, List.range_succ, List.range_zero, List.nil_append,
      List.map_cons, List.map_nil, List.cons.injEq, List.cons_append, Nat.zero_add, and_true] at e1 e2
    exact ⟨e1.2, e2⟩
  · intro s hs
    have : s = 0 := by simp at hs; omega
    subst this
    rfl
  · intro s hs
    have : s = 0 := by simp at hs; omega
    subst this
    exact hdef 1 (by omega) 0 (by omega)
  · intro s hs
    have : s = 0 ∨ s = 1 := by simp at hs; omega
    rcases this with rfl | rfl <;> rfl
  · intro s hs
    exact hdef s (by simpa using hs) s (by omega)

/-- The reads of `reg_data`. -/
theorem tikh_reg_reads {dy ngx ngy : Nat} (n : Nat) : n ∈ tikhRegReads dy ngx ngy ↔ n < dy * (ngx * ngy) := by
  unfold tikhRegReads
  simp only [List.mem_flatMap, List.mem_map, List.mem_range]
  constructor
  · rintro ⟨s, hs, iy, hy, ix, hx, rfl⟩
    have h1 : (iy + 1) * ngx ≤ ngy * ngx := Nat.mul_le_mul_right _ hy
    have h2 : (s + 1) * (ngx * ngy) ≤ dy * (ngx * ngy) := Nat.mul_le_mul_right _ hs
    have e1 : (iy + 1) * ngx = iy * ngx + ngx := by ring
    have e2 : (s + 1) * (ngx * ngy) = s * ngx * ngy + ngy * ngx := by ring
    omega
  · intro h
    rcases Nat.eq_zero_or_pos (ngx * ngy) with h0 | h0
    · rw [h0] at h; omega
    · have hx : 0 < ngx := Nat.pos_of_mul_pos_right h0
      refine ⟨n / (ngx * ngy), (Nat.div_lt_iff_lt_mul h0).mpr h, n % (ngx * ngy) / ngx, ?_,
        n % (ngx * ngy) % ngx, Nat.mod_lt _ hx, ?_⟩
      · rw [Nat.div_lt_iff_lt_mul hx]
        have := Nat.mod_lt n h0
        rwa [Nat.mul_comm ngx ngy] at this ⊢
      · have a := Nat.div_add_mod n (ngx * ngy)
        have b := Nat.div_add_mod (n % (ngx * ngy)) ngx
        rw [Nat.mul_comm] at a b
        rw [Nat.mul_assoc]
        omega

/-- **C170** The default `reg_data`, of shape `(dy, dx, dx)`, is read inside for a block of `b` slices exactly if
`b * num_gridx * num_gridy ≤ dy * dx * dx`. -/
theorem tikh_default_reg_data_iff (dy dx b ngx ngy : Nat) :
    (∀ n ∈ tikhRegReads b ngx ngy, n < dy * dx * dx) ↔ b * (ngx * ngy) ≤ dy * dx * dx := by
  constructor
  · intro h
    by_contra hc
    push Not at hc
    exact absurd (h (dy * dx * dx) ((tikh_reg_reads _).mpr hc)) (lt_irrefl _)
  · intro h n hn
    exact lt_of_lt_of_le ((tikh_reg_reads n).mp hn) h

/-! ### Without the assumption that the results are defined -/

/-- **C170** `bart` and `sirt` (one block): no assumption on the data. -/
theorem recon_bart_own {cpu n : Nat} (hcpu : 1 ≤ cpu) {ncore nchunk limit : Option Nat} {dt dx N num_iter : Nat}
    {nb : Nat} {ind : List Nat} (hb : BlockArgs dt nb ind) {geo : K → Nat → Nat → Segs K}
    (hgeo : ∀ c, ∀ p < dt, ∀ d < dx, SegsOk N (geo c p d)) {m m' : Cell → Option (Mem K)}
    (h : DistRecon cpu n ncore nchunk limit
      (cKernel (fun D g data recon => bart D g data num_iter nb ind recon) dt dx N geo) m m') :
    SlicewiseResult n (ownRun (fun D g data recon => bart D g data num_iter nb ind recon) dt dx N geo) m m' := by
  refine recon_own hcpu (bart_runAlone dt dx N num_iter hb) hgeo (fun i _ => ?_) h
  obtain ⟨r', e, -⟩ := bart_frame (D := ⟨1, dt, dx, N⟩) (g := fun _ => geo ((m (centerB, i)).getD zeros 0))
    (data := (m (tomoB, i)).getD zeros) (num_iter := num_iter) hb ((m (reconB, i)).getD zeros)
    (x := 1 * N) le_rfl
  intro hn
  have := congrArg (Option.map (cut N)) e
  exact absurd (hn.symm.trans this) (fun h => (by cases h))

/-- **C170** `fbp`: no assumption on the data. -/
theorem recon_fbp_own {cpu n : Nat} (hcpu : 1 ≤ cpu) {ncore nchunk limit : Option Nat} {dt dx N : Nat}
    {geo : K → Nat → Nat → Segs K} (hgeo : ∀ c, ∀ p < dt, ∀ d < dx, SegsOk N (geo c p d))
    {m m' : Cell → Option (Mem K)}
    (h : DistRecon cpu n ncore nchunk limit
      (cKernel (fun D g data recon => some (fbp D g data recon)) dt dx N geo) m m') :
    SlicewiseResult n (ownRun (fun D g data recon => some (fbp D g data recon)) dt dx N geo) m m' :=
  recon_own hcpu (fbp_runAlone dt dx N) hgeo (fun _ _ h => (by cases h)) h

/-- **C170** `osem` and `mlem` (one block): positive data and initial images. -/
theorem recon_osem_own {cpu n : Nat} (hcpu : 1 ≤ cpu) {ncore nchunk limit : Option Nat} {dt dx N num_iter : Nat}
    {nb : Nat} {ind : List Nat} (hb : BlockArgs dt nb ind) {geo : K → Nat → Nat → Segs K}
    (hgeo : ∀ c, ∀ p < dt, ∀ d < dx, SegsOk N (geo c p d)) {m m' : Cell → Option (Mem K)}
    (hd : ∀ i < n, ∀ j < dt * dx, 0 < (m (tomoB, i)).getD zeros j)
    (hr : ∀ i < n, ∀ j < N, 0 < (m (reconB, i)).getD zeros j)
    (h : DistRecon cpu n ncore nchunk limit
      (cKernel (fun D g data recon => osem D g data num_iter nb ind recon) dt dx N geo) m m') :
    SlicewiseResult n (ownRun (fun D g data recon => osem D g data num_iter nb ind recon) dt dx N geo) m m' := by
  refine recon_own hcpu (osem_runAlone dt dx N num_iter hb) hgeo (fun i hi => ?_) h
  obtain ⟨r', e, -⟩ := osem_positive (D := ⟨1, dt, dx, N⟩)
    (g := fun _ => geo ((m (centerB, i)).getD zeros 0))
    (data := (m (tomoB, i)).getD zeros) (num_iter := num_iter) (recon := (m (reconB, i)).getD zeros)
    (fun s _ p hp d hd => hgeo _ p hp d hd) (by
      intro s hs p hp d hdd
      have hs0 : s = 0 := Nat.lt_one_iff.mp hs
      subst hs0
      refine hd i hi _ ?_
      show d + p * dx + 0 * dt * dx < dt * dx
      have h1 : (p + 1) * dx ≤ dt * dx := Nat.mul_le_mul_right _ hp
      have h2 : (p + 1) * dx = p * dx + dx := by ring
      have h3 : d < dx := hdd
      rw [Nat.zero_mul, Nat.zero_mul]
      omega) hb (by
      intro s hs j hj
      have hs0 : s = 0 := Nat.lt_one_iff.mp hs
      subst hs0
      rw [Nat.zero_mul]
      exact hr i hi j hj)
  intro hn
  have := congrArg (Option.map (cut N)) e
  exact absurd (hn.symm.trans this) (fun h => (by cases h))

/-- **C170** `tv` with a positive weight: no assumption on the data. -/
theorem recon_tv_own {cpu n : Nat} (hcpu : 1 ≤ cpu) {ncore nchunk limit : Option Nat}
    {dt dx ngx ngy num_iter : Nat} {lam : ℝ} (hl : 0 < lam) {geo : ℝ → Nat → Nat → Segs ℝ}
    (hgeo : ∀ c, ∀ p < dt, ∀ d < dx, SegsOk (ngx * ngy) (geo c p d)) {m m' : Cell → Option (Mem ℝ)}
    (h : DistRecon cpu n ncore nchunk limit
      (cKernel (fun D g data recon => tv lam D ngx ngy g data num_iter recon) dt dx (ngx * ngy) geo) m m') :
    SlicewiseResult n (ownRun (fun D g data recon => tv lam D ngx ngy g data num_iter recon) dt dx (ngx * ngy)
      geo) m m' := by
  refine recon_own hcpu (tv_runAlone hl dt dx ngx ngy num_iter) hgeo (fun i hi => ?_) h
  obtain ⟨S, -, hS, -⟩ := tvIters_value (c := tvC) (r := gradScale ⟨1, dt, dx, ngx * ngy⟩) hl
    (D := ⟨1, dt, dx, ngx * ngy⟩) (ngx := ngx) (ngy := ngy) rfl
    (g := fun _ => geo ((m (centerB, i)).getD zeros 0)) (fun s _ p hp d hd => hgeo _ p hp d hd)
    (data := (m (tomoB, i)).getD zeros)
    (st := ⟨forPix 1 ngx ngy (fun _ _ v => v / gradScale ⟨1, dt, dx, ngx * ngy⟩)
        ((m (reconB, i)).getD zeros),
      forPix 1 ngx ngy (fun _ _ v => v / gradScale ⟨1, dt, dx, ngx * ngy⟩)
        ((m (reconB, i)).getD zeros), zeros, zeros, ⟨zeros, zeros, zeros⟩⟩) (fun _ _ _ _ _ => ⟨rfl, rfl⟩)
  have key : ∃ r', tv lam ⟨1, dt, dx, ngx * ngy⟩ ngx ngy (fun _ => geo ((m (centerB, i)).getD zeros 0))
      ((m (tomoB, i)).getD zeros) num_iter ((m (reconB, i)).getD zeros) = some r' := by
    unfold tv tvRun
    split
    · exact ⟨_, rfl⟩
    · exact ⟨_, congrArg (Option.map _) (hS num_iter)⟩
  obtain ⟨r', e⟩ := key
  intro hn
  have := congrArg (Option.map (cut (ngx * ngy))) e
  exact absurd (hn.symm.trans this) (fun h => (by cases h))

/-- **C170** `art`: the kernel is the `firstCenterKernel` of C08, so with one centre for all slices the result is
slice by slice that of calls for single slices. -/
theorem recon_art_own_partial {cpu n : Nat} (hcpu : 1 ≤ cpu) {ncore nchunk limit : Option Nat}
    {dt dx N num_iter : Nat} {geo : K → Nat → Nat → Segs K}
    (hgeo : ∀ c, ∀ p < dt, ∀ d < dx, SegsOk N (geo c p d)) {m m' : Cell → Option (Mem K)} (c0 : Option (Mem K))
    (hc : ∀ i < n, m (centerB, i) = c0)
    (h : DistRecon cpu n ncore nchunk limit
      (cKernel (fun D g data recon => some (art D g data num_iter recon)) dt dx N geo) m m') :
    SlicewiseResult n (ownRun (fun D g data recon => some (art D g data num_iter recon)) dt dx N geo) m m' := by
  rw [show cKernel (fun D g data recon => some (art D g data num_iter recon)) dt dx N geo =
    firstCenterKernel (ownRun (fun D g data recon => some (art D g data num_iter recon)) dt dx N geo) from
      funext (art_kernel num_iter hgeo)] at h
  exact recon_shared_center_equal_partial hcpu _ c0 hc (Or.inl h)

/-- The rays of the tracer for any centre satisfy the assumption. -/
theorem tracer_geo_ok (rx rz dx dt : Nat) (theta : Nat → ℝ) (c : ℝ) : ∀ p < dt, ∀ d < dx,
    SegsOk (rx * rz) (tracerGeom rx rz dx (fun _ => c) theta 0 p d) := fun p hp d hd =>
  tracer_geomOk rx rz dx 1 dt (fun _ => c) theta 0 one_pos p hp d hd

/-! ### Cases -/

/-- One view, two detector pixels, the first of which sees the only pixel of the image. -/
def demoGeo : ℚ → Nat → Nat → Segs ℚ := fun _ _ d => if d = 0 then [(0, 1)] else []

theorem demoGeo_ok (c : ℚ) : ∀ p < 1, ∀ d < 2, SegsOk (1 * 1) (demoGeo c p d) := by
  intro p _ d _ e he
  unfold demoGeo at he
  split at he
  · simp at he
    subst he
    exact ⟨by decide, by decide +kernel⟩
  · simp at he

/-- Two slices with data 1 and 2, initial image 0. -/
def demoMem : Cell → Option (Mem ℚ) := fun c =>
  if c.1 = tomoB then some fun _ => c.2 + 1 else some fun _ => 0

/-- Regularisation data 0 for slice 0 and 5 for slice 1. -/
def demoReg : Mem ℚ := fun n => if n = 0 then 0 else 5

/-- The two results of slice 1 are different numbers: 14/10 and 4/10. -/
theorem tikh_reg_data_differs :
    (∃ m1, DistRecon 4 2 (some 1) none none
      (cKernel (tikhRun 1 1 1 1 (1 / 10) 1 demoReg) 1 2 (1 * 1) demoGeo) demoMem m1) ∧
    (∃ m2, DistRecon 4 2 (some 2) none none
      (cKernel (tikhRun 1 1 1 1 (1 / 10) 1 demoReg) 1 2 (1 * 1) demoGeo) demoMem m2) ∧
    ∀ m1 m2, DistRecon 4 2 (some 1) none none
      (cKernel (tikhRun 1 1 1 1 (1 / 10) 1 demoReg) 1 2 (1 * 1) demoGeo) demoMem m1 →
      DistRecon 4 2 (some 2) none none
      (cKernel (tikhRun 1 1 1 1 (1 / 10) 1 demoReg) 1 2 (1 * 1) demoGeo) demoMem m2 →
      (m1 (reconB, 1)).map (· 0) = some (14 / 10) ∧ (m2 (reconB, 1)).map (· 0) = some (4 / 10) := by
  refine ⟨recon_total (by decide) (by decide) _ _ _ (by decide) _ _,
    recon_total (by decide) (by decide) _ _ _ (by decide) _ _, fun m1 m2 h1 h2 => ?_⟩
  obtain ⟨e1, e2⟩ := tikh_reg_data_depends_on_ncore demoGeo_ok (by
    intro i hi j hj h
    have : (i = 0 ∧ j = 0) ∨ (i = 1 ∧ j = 0) ∨ (i = 1 ∧ j = 1) := by omega
    have h' := congrArg Option.isNone h
    revert h'
    rcases this with ⟨rfl, rfl⟩ | ⟨rfl, rfl⟩ | ⟨rfl, rfl⟩ <;> decide +kernel) h1 h2
  rw [e1, e2]
  constructor <;> decide +kernel

/-- The default call of `tikh` on a grid that is larger than the detector reads outside `reg_data`. -/
example : ¬ ∀ n ∈ tikhRegReads 1 3 3, n < 1 * 2 * 2 := by
  rw [tikh_default_reg_data_iff]
  decide

/-- `art` on two slices with one centre. -/
example (ncore nchunk limit : Option Nat) (m' : Cell → Option (Mem ℚ))
    (h : DistRecon 4 2 ncore nchunk limit
      (cKernel (fun D g data recon => some (art D g data 1 recon)) 1 2 1 demoGeo) demoMem m') :
    (m' (reconB, 0)).map (· 0) = some 1 ∧ (m' (reconB, 1)).map (· 0) = some 2 := by
  obtain ⟨h1, -⟩ := recon_art_own_partial (by decide) demoGeo_ok (some fun _ => 0) (fun _ _ => rfl) h
  rw [h1 0 (by decide), h1 1 (by decide)]
  constructor <;> decide +kernel

/-- `mlem` with positive data and images. -/
example (ncore nchunk limit : Option Nat) (m' : Cell → Option (Mem ℚ))
    (h : DistRecon 4 2 ncore nchunk limit
      (cKernel (fun D g data recon => osem D g data 1 1 [0] recon) 1 2 1 demoGeo)
      (fun c => some fun _ => c.2 + 1) m') :
    (m' (reconB, 0)).map (· 0) = some 1 ∧ (m' (reconB, 1)).map (· 0) = some 2 := by
  obtain ⟨h1, -⟩ := recon_osem_own (by decide) (Or.inl rfl) demoGeo_ok
    (fun i _ j _ => by show (0 : ℚ) < (i : ℚ) + 1; positivity)
    (fun i _ j _ => by show (0 : ℚ) < (i : ℚ) + 1; positivity) h
  rw [h1 0 (by decide), h1 1 (by decide)]
  constructor <;> decide +kernel

/-- `sirt` on two slices with different data: each slice its own, whatever the number of cores. -/
example (ncore nchunk limit : Option Nat) (m' : Cell → Option (Mem ℚ))
    (h : DistRecon 4 2 ncore nchunk limit
      (cKernel (fun D g data recon => sirt D g data 1 recon) 1 2 1 demoGeo) demoMem m') :
    (m' (reconB, 0)).map (· 0) = some 1 ∧ (m' (reconB, 1)).map (· 0) = some 2 := by
  obtain ⟨h1, -⟩ := recon_own (by decide) (sirt_runAlone 1 2 1 1) demoGeo_ok (by
    intro i hi h
    have : i = 0 ∨ i = 1 := by omega
    have h' := congrArg Option.isNone h
    revert h'
    rcases this with rfl | rfl <;> decide +kernel) h
  rw [h1 0 (by decide), h1 1 (by decide)]
  constructor <;> decide +kernel

end Tomopy.Recon
