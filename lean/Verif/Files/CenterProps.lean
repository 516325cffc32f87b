import Verif.Files.CenterModel
import Verif.Files.Props
import Verif.Recon.Props

/-! C137: the images saved by `write_center`. -/

set_option linter.unusedSectionVars false

namespace Tomopy.Files
open Tomopy.Mproc Tomopy.Recon Tomopy.Par

/-- The blocks for `nchunk=1` are single slices. -/
theorem chunk_one_blocks {cpu n : Nat} {ncore : Option Nat} {nc : Nat} {slcs : List Slc}
    (h : getNcoreSlices cpu n ncore (some 1) = .ok (nc, slcs)) {c : List Nat}
    (hc : c ∈ useChunks n slcs) : ∃ i, c = [i] := by
  simp only [getNcoreSlices, Except.ok.injEq, Prod.mk.injEq] at h
  obtain ⟨_, rfl⟩ := h
  unfold useChunks at hc
  obtain ⟨h1, h2⟩ := List.mem_filter.1 hc
  obtain ⟨s, hs, rfl⟩ := List.mem_map.1 h1
  unfold chunkSlices at hs
  obtain ⟨j, hj, rfl⟩ := List.mem_map.1 hs
  have hj' : j < n := by simpa [pyRange] using hj
  refine ⟨j, ?_⟩
  simp only [Slc.indices]
  rw [show min (j + 1) n - j = 1 by omega]
  rfl

/-- **C137** With `nchunk=1` all kernels, also those that use the centre of the first slice of a
block, use for every slice its own centre. -/
theorem chunk_one_own_center {α : Type} {cpu n : Nat} (hcpu : 1 ≤ cpu) {ncore limit : Option Nat}
    (g : α → α → α → α) (k : Kernel α)
    (hk : k = localKernel g ∨ k = firstCenterKernel g ∨ k = pairKernel g) {m m' : Cell → α}
    (h : DistRecon cpu n ncore (some 1) limit k m m') :
    ∀ i < n, m' (reconB, i) = g (m (tomoB, i)) (m (centerB, i)) (m (reconB, i)) := by
  have hlen : ∀ rows, (k rows).length = rows.length := by
    rcases hk with rfl | rfl | rfl
    · exact localKernel_length g
    · exact firstCenterKernel_length g
    · exact pairKernel_length g
  have hone : ∀ r, k [r] = [g r.1 r.2.1 r.2.2] := by
    intro r
    rcases hk with rfl | rfl | rfl <;> rfl
  obtain ⟨nc, slcs, hs, hfl, hb, _⟩ := dist_blocks hcpu hlen h
  intro i hi
  have : i ∈ (useChunks n slcs).flatten := by rw [hfl]; exact List.mem_range.2 hi
  obtain ⟨c, hc, hic⟩ := List.mem_flatten.1 this
  obtain ⟨j, rfl⟩ := chunk_one_blocks hs hc
  obtain rfl : i = j := by simpa using hic
  have e := (hb _ hc).1
  simp only [List.map_cons, List.map_nil, hone, List.cons.injEq, and_true] at e
  exact e

variable {K : Type} [Field K] [LinearOrder K] [IsStrictOrderedRing K] [FloorRing K]

/-- **C137 (partial)** With a step above 1/100, the file named after a centre holds the slice
reconstructed from the data of slice `ind` with that centre, whichever of the algorithms is used and
however the threads are scheduled; if a mask is wanted, it always has ratio 1. -/
theorem write_center_images_partial {α : Type} {cpu : Nat} (hcpu : 1 ≤ cpu) (limit : Option Nat)
    (g : α → α → α → α) (k : Kernel α)
    (hk : k = localKernel g ∨ k = firstCenterKernel g ∨ k = pairKernel g)
    (circ : K → α → α) (sino : (Nat → Nat → K) → α) (cen : K → α) (x0 : Nat → α) (cwd dpath : Name)
    (hcwd : cwd.head? = some '/') (tomo : Arr3 K) (so : Bool) (ind : Option Nat)
    (range : Option (K × K × K)) (hstep : ∀ a b s, range = some (a, b, s) → 1 / 100 < s)
    (mask : Bool) (ratio : K) (s s' : Store α)
    (h : WriteCenter cpu limit k circ sino cen x0 cwd dpath tomo so ind range mask ratio s s')
    (i : Nat) (c : K) (hi : (centers tomo.d2 range)[i]? = some c) :
    s' (tiffPath cwd dpath (some (fmt2 c)) "tiff".toList) =
      some ((if mask then circ 1 else id)
        (g (sino fun t x => (initTomo tomo so).get (ind.getD ((initTomo tomo so).d0 / 2)) t x)
          (cen c) (x0 i))) := by
  obtain ⟨m, m', h1, h2, rfl⟩ := h
  rw [(write_center_files_partial cwd dpath hcwd tomo.d2 range hstep _ s).2 i c hi]
  have hlt : i < (centers tomo.d2 range).length := (List.getElem?_eq_some_iff.1 hi).1
  rw [chunk_one_own_center hcpu g k hk h2 i hlt]
  obtain ⟨e1, e2, e3⟩ := h1 i c hi
  rw [e1, e2, e3]
  have hs : wcSino tomo so (wcSlice tomo so ind) =
      fun t x => (initTomo tomo so).get (ind.getD ((initTomo tomo so).d0 / 2)) t x := by
    funext t x
    cases so <;> cases ind <;> rfl
  rw [hs]
  unfold wcMask
  cases mask <;> rfl

/-- **C137** Such runs exist. -/
theorem write_center_total {α : Type} {cpu : Nat} (hcpu : 1 ≤ cpu) (limit : Option Nat)
    (hl : limit ≠ some 0) (k : Kernel α)
    (circ : K → α → α) (sino : (Nat → Nat → K) → α) (cen : K → α) (x0 : Nat → α) (cwd dpath : Name)
    (tomo : Arr3 K) (so : Bool) (ind : Option Nat) (range : Option (K × K × K))
    (hne : centers tomo.d2 range ≠ []) (mask : Bool) (ratio : K) (s : Store α) :
    ∃ s', WriteCenter cpu limit k circ sino cen x0 cwd dpath tomo so ind range mask ratio s s' := by
  obtain ⟨c0, hc0⟩ : ∃ c0, (centers tomo.d2 range)[0]? = some c0 :=
    ⟨_, List.getElem?_eq_getElem (List.length_pos_iff.2 hne)⟩
  let m : Cell → α := fun l =>
    if l.1 = tomoB then sino (wcSino tomo so (wcSlice tomo so ind))
    else if l.1 = centerB then cen (((centers tomo.d2 range)[l.2]?).getD c0) else x0 l.2
  obtain ⟨m', h⟩ := recon_total hcpu (List.length_pos_iff.2 hne) none (some 1) limit hl k m
  refine ⟨_, m, m', ?_, h, rfl⟩
  intro i c hi
  refine ⟨if_pos rfl, ?_, ?_⟩
  · show (if centerB = tomoB then _ else _) = _
    rw [if_neg (by decide), if_pos rfl]
    show cen (((centers tomo.d2 range)[i]?).getD c0) = cen c
    rw [hi]; rfl
  · show (if reconB = tomoB then _ else _) = _
    rw [if_neg (by decide)]
    show (if reconB = centerB then _ else _) = _
    rw [if_neg (by decide)]

/-- **C137 (refutation)** A ratio other than 1 is not used. -/
theorem write_center_ratio_unused {α : Type} {cpu : Nat} (limit : Option Nat) (k : Kernel α)
    (circ : K → α → α) (sino : (Nat → Nat → K) → α) (cen : K → α) (x0 : Nat → α) (cwd dpath : Name)
    (tomo : Arr3 K) (so : Bool) (ind : Option Nat) (range : Option (K × K × K)) (mask : Bool)
    (ratio ratio' : K) (s s' : Store α) :
    WriteCenter cpu limit k circ sino cen x0 cwd dpath tomo so ind range mask ratio s s' ↔
    WriteCenter cpu limit k circ sino cen x0 cwd dpath tomo so ind range mask ratio' s s' := Iff.rfl

theorem filter_documented (a : String) (l : List String) (h : documented a = some l) :
    "filter_name" ∈ l ↔ a = "fbp" ∨ a = "gridrec" := by
  unfold documented at h
  unfold table0 at h
  split at h <;> first
    | (simp only [Option.map_some, Option.some.injEq] at h
       subst h
       simp [accelKwargs])
    | cases h

/-- **C137 (refutation and exact condition)** After any history of calls, `write_center` passes the
checks of `recon` exactly if there is an angle for every projection and the algorithm is `fbp` or
`gridrec`.  With the other named algorithms it is always a `ValueError`: `filter_name` is passed on. -/
theorem write_center_accepts_iff (hist : List Recon.Call) (dt dx n ntheta : Nat) (a f : String) :
    ((∃ kw, (checkCall (runHistory table0 hist) (wcCall dt dx n ntheta (.name a) f)).2 = .ok kw) ↔
      dt = ntheta ∧ (a = "fbp" ∨ a = "gridrec")) ∧
    ∀ e, (checkCall (runHistory table0 hist) (wcCall dt dx n ntheta (.name a) f)).2 = .error e →
      e = .value := by
  obtain ⟨h1, h2⟩ := recon_accepts_iff hist (wcCall dt dx n ntheta (.name a) f) a rfl
  refine ⟨h1.trans ?_, h2⟩
  constructor
  · rintro ⟨h, _, l, hl, hk⟩
    exact ⟨h, (filter_documented a l hl).1 (hk _ (List.mem_singleton.2 rfl))⟩
  · rintro ⟨h, ha⟩
    obtain ⟨l, hl⟩ : ∃ l, documented a = some l := by
      rcases ha with rfl | rfl <;> exact ⟨_, rfl⟩
    refine ⟨h, rfl, l, hl, ?_⟩
    intro p hp
    rw [List.mem_singleton.1 hp]
    exact (filter_documented a l hl).2 ha

/-- The algorithms that `write_center` lists (rotation.py:481-513). -/
example : ["art", "bart", "fbp", "gridrec", "mlem", "osem", "ospml_hybrid", "ospml_quad",
    "pml_hybrid", "pml_quad", "sirt", "tv", "grad", "tikh"].filter (fun a =>
      (checkCall table0 (wcCall 180 64 20 180 (.name a) "parzen")).2.isOk) = ["fbp", "gridrec"] := by
  decide

/-- Hypotheses met: the default range for 9 columns and two cores, with a kernel that shares a centre. -/
example : ∃ s', WriteCenter (K := ℚ) 2 none (firstCenterKernel fun t c x => t + c * x) (fun r y => r * y)
    (fun f => f 0 0) id (fun _ => 1) "/".toList "c".toList ⟨4, 3, 9, fun i j k => i + j + k⟩ false none
    none true (1 / 2) (fun _ => none) s' :=
  write_center_total (by decide) none (by simp) _ _ _ _ _ _ _ _ _ _ _ (by decide +kernel) _ _ _

end Tomopy.Files
