import Verif.Mproc.Lemmas

/-! Properties C01–C07 and C13: work splitting, `distribute_jobs`, numexpr threads. -/
namespace Tomopy.Mproc
open Tomopy.Par

/-! ## Specification -/

/-- The slices, in order, select every index of an axis of length `n` exactly once. -/
def CoversExactly (n : Nat) (slcs : List Slc) : Prop :=
  slcs.flatMap (Slc.indices n) = List.range n

/-- Number of indices selected by each slice. -/
def sliceLengths (n : Nat) (slcs : List Slc) : List Nat :=
  slcs.map fun s => (Slc.indices n s).length

/-! ## C01 -/

/-- **C01** The slices for reconstruction cover the axis exactly once and none of them is
empty; between 1 and `axis` workers are asked for. -/
theorem ncore_slices_cover (cpu axis : Nat) (hcpu : 1 ≤ cpu) (haxis : 1 ≤ axis)
    (ncore nchunk : Option Nat) :
    ∃ k slcs, getNcoreSlices cpu axis ncore nchunk = .ok (k, slcs) ∧
      CoversExactly axis slcs ∧ (∀ s ∈ slcs, Slc.indices axis s ≠ []) ∧
      1 ≤ k ∧ k ≤ axis := by
  have hk0 : 1 ≤ coresOr cpu ncore := by
    unfold coresOr
    split <;> omega
  have hk : 1 ≤ min (coresOr cpu ncore) axis := by omega
  have hk' : min (coresOr cpu ncore) axis ≤ axis := by omega
  generalize hkk : min (coresOr cpu ncore) axis = k at hk hk'
  match nchunk with
  | none =>
    refine ⟨k, evenSlices axis k, ?_, evenSlices_cover axis k hk, ?_, hk, hk'⟩
    · simp only [getNcoreSlices, hkk]
      rw [if_neg (by omega)]
    · intro s hs he
      have hl : (Slc.indices axis s).length ∈
          (evenSlices axis k).map fun s => (Slc.indices axis s).length :=
        List.mem_map.2 ⟨s, hs, rfl⟩
      unfold evenSlices at hl
      simp only at hl
      rw [map_len_zip_offsets axis _ 0 (by rw [sum_evenSizes axis k hk]; omega)] at hl
      rw [he] at hl
      simp only [evenSizes, List.length_nil, List.mem_map] at hl
      obtain ⟨i, _, hi⟩ := hl
      have : 1 ≤ axis / k := (Nat.one_le_div_iff hk).2 hk'
      omega
  | some 0 =>
    refine ⟨k, _, by simp only [getNcoreSlices, hkk], idx_cover axis, ?_, hk, hk'⟩
    intro s hs
    obtain ⟨i, hi, rfl⟩ := List.mem_map.1 hs
    simp [Slc.indices, List.mem_range.1 hi]
  | some (c + 1) =>
    exact ⟨k, _, by simp only [getNcoreSlices, hkk], chunkSlices_cover axis (c + 1) (by omega),
      chunkSlices_nonempty axis (c + 1) (by omega), hk, hk'⟩

/-- Witness: 10 slices on 3 of 4 cpus. -/
example : getNcoreSlices 4 10 (some 3) none
    = .ok (3, [.range 0 4, .range 4 7, .range 7 10]) := by rfl

/-- **C01** Corollary in terms of single indices: every index lies in exactly one slice. -/
theorem ncore_slices_unique (cpu axis : Nat) (hcpu : 1 ≤ cpu) (ncore nchunk : Option Nat)
    (i : Nat) (hi : i < axis) :
    ∃ k slcs, getNcoreSlices cpu axis ncore nchunk = .ok (k, slcs) ∧
      (slcs.filter fun s => i ∈ Slc.indices axis s).length = 1 := by
  obtain ⟨k, slcs, h, hc, hrest⟩ := ncore_slices_cover cpu axis hcpu (by omega) ncore nchunk
  refine ⟨k, slcs, h, ?_⟩
  clear hrest
  unfold CoversExactly at hc
  have hn : (slcs.flatMap (Slc.indices axis)).Nodup := by rw [hc]; exact List.nodup_range
  have hm : i ∈ slcs.flatMap (Slc.indices axis) := by rw [hc]; exact List.mem_range.2 hi
  clear h hc
  induction slcs with
  | nil => simp at hm
  | cons s ss ih =>
    rw [List.flatMap_cons] at hn hm
    rw [List.nodup_append] at hn
    by_cases hs : i ∈ Slc.indices axis s
    · have hnone : ss.filter (fun s => i ∈ Slc.indices axis s) = [] := by
        rw [List.filter_eq_nil_iff]
        intro t ht hti
        exact hn.2.2 i hs i (List.mem_flatMap.2 ⟨t, ht, by simpa using hti⟩) rfl
      rw [List.filter_cons_of_pos (by simpa using hs), hnone]
      rfl
    · rw [List.filter_cons_of_neg (by simpa using hs)]
      exact ih hn.2.1 ((List.mem_append.1 hm).resolve_left hs)

example : ∃ k slcs, getNcoreSlices 8 7 none (some 3) = .ok (k, slcs) ∧
    (slcs.filter fun s => 6 ∈ Slc.indices 7 s).length = 1 :=
  ncore_slices_unique 8 7 (by decide) none (some 3) 6 (by decide)

/-- **C01** The chunks that `distribute_jobs` hands out cover the axis exactly once, for
every axis length (also 0) and every chunk size. -/
theorem job_slices_cover (axis nchunk : Nat) : CoversExactly axis (jobSlices axis nchunk) :=
  jobSlices_cover axis nchunk

example : jobSlices 7 3 = [.range 0 3, .range 3 6, .range 6 9] ∧
    CoversExactly 7 (jobSlices 7 3) := ⟨rfl, job_slices_cover 7 3⟩

/-- **C01** The only failure is an axis of length 0 with automatic chunking. -/
theorem ncore_slices_error_iff (cpu axis : Nat) (hcpu : 1 ≤ cpu) (ncore nchunk : Option Nat)
    (e : PyErr) :
    getNcoreSlices cpu axis ncore nchunk = .error e ↔
      (axis = 0 ∧ nchunk = none ∧ e = .zeroDivision) := by
  have hk0 : 1 ≤ coresOr cpu ncore := by
    unfold coresOr
    split <;> omega
  match nchunk with
  | none =>
    simp only [getNcoreSlices]
    split
    · rename_i h
      have : axis = 0 := by omega
      simp [this, eq_comm]
    · rename_i h
      have : axis ≠ 0 := by omega
      simp [this]
  | some 0 => simp [getNcoreSlices]
  | some (c + 1) => simp [getNcoreSlices]

example : getNcoreSlices 4 0 none none = .error .zeroDivision := rfl

/-! ## C02 -/

/-- **C02** Automatic splitting yields exactly `min(ncore or cpu, axis)` slices, all
non-empty, with sizes that differ by at most one. -/
theorem ncore_slices_balanced (cpu axis : Nat) (hcpu : 1 ≤ cpu) (haxis : 1 ≤ axis)
    (ncore : Option Nat) :
    ∃ slcs, getNcoreSlices cpu axis ncore none = .ok (min (coresOr cpu ncore) axis, slcs) ∧
      slcs.length = min (coresOr cpu ncore) axis ∧
      (∀ a ∈ sliceLengths axis slcs, 1 ≤ a) ∧
      (∀ a ∈ sliceLengths axis slcs, ∀ b ∈ sliceLengths axis slcs, a ≤ b + 1) := by
  have hk0 : 1 ≤ coresOr cpu ncore := by
    unfold coresOr
    split <;> omega
  have hk : 1 ≤ min (coresOr cpu ncore) axis := by omega
  have hk' : min (coresOr cpu ncore) axis ≤ axis := by omega
  generalize hkk : min (coresOr cpu ncore) axis = k at hk hk'
  have hlens : sliceLengths axis (evenSlices axis k) = evenSizes axis k := by
    unfold sliceLengths evenSlices
    exact map_len_zip_offsets axis _ 0 (by rw [sum_evenSizes axis k hk]; omega)
  refine ⟨evenSlices axis k, ?_, ?_, ?_, ?_⟩
  · simp only [getNcoreSlices, hkk]
    rw [if_neg (by omega)]
  · have := congrArg List.length hlens
    simpa [sliceLengths, evenSizes] using this
  · rw [hlens]
    intro a ha
    simp only [evenSizes, List.mem_map] at ha
    obtain ⟨i, _, hi⟩ := ha
    have : 1 ≤ axis / k := (Nat.one_le_div_iff hk).2 hk'
    omega
  · rw [hlens]
    intro a ha b hb
    simp only [evenSizes, List.mem_map] at ha hb
    obtain ⟨i, _, rfl⟩ := ha
    obtain ⟨j, _, rfl⟩ := hb
    split <;> split <;> omega

example : ∃ slcs, getNcoreSlices 16 10 (some 4) none = .ok (4, slcs) ∧
    sliceLengths 10 slcs = [3, 3, 2, 2] := ⟨_, rfl, by decide⟩

/-! ## C03 -/

/-- **C03** The lists kept by ranks `0, …, size-1` concatenate to the full list. -/
theorem mpi_ranks_partition {α : Type} (slcs : List α) (size : Nat) (hsize : 1 ≤ size) :
    (List.range size).flatMap (fun rank => mpiSplit slcs size rank) = slcs := by
  by_cases h1 : size > 1
  · have key : ∀ r, 1 ≤ r → r ≤ size →
        (List.range r).flatMap (fun rank => mpiSplit slcs size rank)
          = slcs.take (slcs.length / size * r + slcs.length % size) := by
      intro r
      induction r with
      | zero => intro h; omega
      | succ r ih =>
        intro _ hr
        rcases Nat.eq_zero_or_pos r with h0 | h0
        · subst h0
          simp [mpiSplit, h1]
        · rw [List.range_succ, List.flatMap_append, ih h0 (by omega)]
          simp only [List.flatMap_cons, List.flatMap_nil, List.append_nil]
          simp only [mpiSplit, if_pos h1, if_neg (show ¬ r = 0 by omega)]
          rw [← List.take_add]
          congr 1
          rw [Nat.mul_succ]
          omega
    rw [key size hsize (Nat.le_refl _)]
    rw [List.take_of_length_le]
    have := Nat.div_add_mod slcs.length size
    rw [Nat.mul_comm]
    omega
  · have : size = 1 := by omega
    subst this
    simp [mpiSplit]

example : (List.range 3).map (mpiSplit [10, 11, 12, 13, 14, 15, 16] 3)
    = [[10, 11, 12], [13, 14], [15, 16]] := by decide

/-- **C03** Together, the ranks process every index of the axis exactly once. -/
theorem mpi_ranks_cover (cpu axis : Nat) (hcpu : 1 ≤ cpu) (ncore nchunk : Option Nat)
    (size : Nat) (hsize : 1 ≤ size) :
    CoversExactly axis ((List.range size).flatMap fun rank =>
      (getWorkerNcoreSlices cpu axis ncore nchunk size rank).2) := by
  have hk0 : 1 ≤ coresOr cpu ncore := by
    unfold coresOr
    split <;> omega
  unfold CoversExactly getWorkerNcoreSlices
  rw [mpi_ranks_partition _ size hsize]
  match nchunk with
  | none => exact evenSlices_cover axis _ hk0
  | some 0 => exact idx_cover axis
  | some (c + 1) => exact chunkSlices_cover axis (c + 1) (by omega)

example : CoversExactly 10 ((List.range 3).flatMap fun rank =>
    (getWorkerNcoreSlices 4 10 none none 3 rank).2) :=
  mpi_ranks_cover 4 10 (by decide) none none 3 (by decide)

/-! ## C04 -/

/-- The number of chunks that a chunk size produces. -/
theorem length_jobSlices (axis c : Nat) :
    (jobSlices axis c).length = if c = 0 then axis else ceilDiv axis c := by
  unfold jobSlices
  split <;> simp [pyRange, ceilDiv]

/-- **C04** For a non-empty axis and at least one core the chosen pair is valid: between 1 and
`cpu` workers, never more than requested; an explicit chunk size is only clipped to the axis
and then no worker is idle; an automatic chunk size is at least 1 and covers the axis.
(`_partial`: with automatic chunk size "no idle worker" is false, see
`ncore_nchunk_idle_worker`.) -/
theorem ncore_nchunk_valid_partial (cpu axis : Nat) (hcpu : 1 ≤ cpu) (haxis : 1 ≤ axis)
    (ncore nchunk : Option Nat) (hn : ncore ≠ some 0) :
    ∃ k c, getNcoreNchunk cpu axis ncore nchunk = .ok (k, c) ∧
      1 ≤ k ∧ k ≤ cpu ∧ (∀ a, ncore = some a → k ≤ a) ∧ c ≤ axis ∧
      (∀ a, nchunk = some a → c = min a axis ∧ k ≤ (jobSlices axis c).length) ∧
      (nchunk = none → 1 ≤ c ∧ axis ≤ k * c ∧ (k - 1) * (c - 1) < axis) := by
  have hk01 : 1 ≤ limitCores cpu ncore := by
    unfold limitCores
    split
    · exact hcpu
    · rename_i a
      have : a ≠ 0 := fun e => hn (by rw [e])
      split <;> omega
  have hk0c : limitCores cpu ncore ≤ cpu := by
    unfold limitCores
    split
    · exact Nat.le_refl _
    · split <;> omega
  have hk0a : ∀ a, ncore = some a → limitCores cpu ncore ≤ a := by
    intro a ha
    subst ha
    simp only [limitCores]
    split <;> omega
  generalize hk0 : limitCores cpu ncore = k0 at hk01 hk0c hk0a
  cases nchunk with
  | none =>
    have hcd : ceilDiv axis 1 = axis := by simp [ceilDiv]
    obtain ⟨k, hk, h1, h2, h3⟩ : ∃ k, (if k0 > axis then axis else k0) = k ∧
        1 ≤ k ∧ k ≤ k0 ∧ k ≤ axis := ⟨_, rfl, by split <;> omega, by split <;> omega,
          by split <;> omega⟩
    have hcp := ceilDiv_pos axis k haxis h1
    refine ⟨k, ceilDiv axis k, ?_, h1, by omega, fun a ha => by have := hk0a a ha; omega,
      ceilDiv_le axis _ h1, by simp, fun _ => ⟨hcp, ?_, ?_⟩⟩
    · simp only [getNcoreNchunk, hk0, limitChunk, orOne, hcd, hk]
      rw [if_neg (by omega)]
    · have := le_ceil_mul axis k h1
      rw [Nat.mul_comm]
      exact this
    · have h4 : (ceilDiv axis k - 1) * k < axis := by
        have h5 := Nat.div_mul_le_self (axis + k - 1) k
        have h6 : (axis + k - 1) / k * k = (ceilDiv axis k - 1) * k + k := by
          unfold ceilDiv at hcp ⊢
          rw [Nat.sub_mul, Nat.one_mul]
          have : k ≤ (axis + k - 1) / k * k := Nat.le_mul_of_pos_left k hcp
          omega
        omega
      have : (k - 1) * (ceilDiv axis k - 1) ≤ (ceilDiv axis k - 1) * k := by
        rw [Nat.mul_comm]
        exact Nat.mul_le_mul_left _ (by omega)
      omega
  | some a =>
    obtain ⟨c, hc, hca⟩ : ∃ c, limitChunk axis (some a) = some c ∧ c = min a axis := by
      simp only [limitChunk]
      split
      · exact ⟨axis, rfl, by omega⟩
      · exact ⟨a, rfl, by omega⟩
    have hlen : (jobSlices axis c).length = ceilDiv axis (orOne (some c)) := by
      rw [length_jobSlices]
      cases c with
      | zero => simp [orOne, ceilDiv]
      | succ c => simp [orOne]
    have hd : 1 ≤ ceilDiv axis (orOne (some c)) := by
      refine ceilDiv_pos axis _ haxis ?_
      cases c <;> simp [orOne]
    refine ⟨if k0 > ceilDiv axis (orOne (some c)) then ceilDiv axis (orOne (some c)) else k0,
      c, ?_, ?_, ?_, ?_, by omega, ?_, by simp⟩
    · simp only [getNcoreNchunk, hk0, hc]
    · split <;> omega
    · split <;> omega
    · intro b hb
      have := hk0a b hb
      split <;> omega
    · intro b hb
      cases hb
      refine ⟨hca, ?_⟩
      rw [hlen]
      split <;> omega

example : getNcoreNchunk 8 100 (some 12) none = .ok (8, 13) ∧
    getNcoreNchunk 8 100 none (some 40) = .ok (3, 40) := by decide

/-- **C04** (refutation) With automatic chunk size a worker can be idle: 9 slices on 6 cores
make only 5 chunks. -/
theorem ncore_nchunk_idle_worker :
    ¬ ∀ cpu axis k c, 1 ≤ cpu → 1 ≤ axis → getNcoreNchunk cpu axis none none = .ok (k, c) →
      k ≤ (jobSlices axis c).length := by
  intro h
  have := h 6 9 6 2 (by decide) (by decide) (by decide)
  revert this
  decide

/-- **C04** The arithmetic error occurs exactly for automatic chunking with an empty axis or
an explicit `ncore = 0`. -/
theorem ncore_nchunk_error_iff (cpu axis : Nat) (hcpu : 1 ≤ cpu) (ncore nchunk : Option Nat)
    (e : PyErr) :
    getNcoreNchunk cpu axis ncore nchunk = .error e ↔
      (nchunk = none ∧ (axis = 0 ∨ ncore = some 0) ∧ e = .zeroDivision) := by
  cases nchunk with
  | some a =>
    simp only [getNcoreNchunk, limitChunk]
    split
    · split at * <;> simp_all
    · split at * <;> simp_all
  | none =>
    have hcd : ceilDiv axis (orOne (limitChunk axis none)) = axis := by
      simp [ceilDiv, orOne, limitChunk]
    unfold getNcoreNchunk
    simp only [hcd]
    simp only [limitChunk]
    have hz : limitCores cpu ncore = 0 ↔ ncore = some 0 := by
      cases ncore with
      | none => simp [limitCores]; omega
      | some k =>
        simp only [limitCores, Option.some.injEq]
        split <;> omega
    by_cases h : (if limitCores cpu ncore > axis then axis else limitCores cpu ncore) = 0
    · rw [if_pos h]
      have : axis = 0 ∨ ncore = some 0 := by
        split at h
        · exact Or.inl h
        · exact Or.inr (hz.1 h)
      simp [this, eq_comm]
    · rw [if_neg h]
      have h1 : axis ≠ 0 := by
        intro e
        subst e
        split at h <;> omega
      have h2 : ¬ ncore = some 0 := by
        intro e
        have h3 := hz.2 e
        rw [h3] at h
        simp at h
      simp [h1, h2]

example : getNcoreNchunk 4 0 none none = .error .zeroDivision ∧
    getNcoreNchunk 4 0 none (some 3) = .ok (0, 0) := by decide

/-! ## C05, C06 -/

/-- A function of the block that computes each slice of the result from the input slices at
the same position (`g`) and leaves its arguments alone. -/
structure PureSlicewise {α : Type} (f : BlockFun α) (g : List α → α) : Prop where
  inplace : ∀ rows, f.inplace rows = rows
  ret : ∀ rows, f.ret rows = some (rows.map g)

/-- **C05/C06** Whatever the number of cores, the chunk size, the schedule of the pool and the
set of chunks that had to be re-run on the host, slice `i` of the returned array is `g` of
the input slices `i`. -/
theorem distribute_jobs_schedule_independent {α : Type} {cpu : Nat} {debug : Bool}
    {c : Call α} {m m' : Cell → α} {res : Buf} {g : List α → α}
    (hf : PureSlicewise c.f g)
    (h : DistributeJobs cpu debug c (fun _ => false) m m' res) :
    ∀ i < c.n, m' (res, i) = g (c.ins.map fun k => m (.caller k, i)) := by
  intro i hi
  obtain ⟨m1, hm', hres, ⟨_, nk, _, hch⟩, _⟩ := dist_core h
  obtain ⟨ch, _, hnd, hich, _, hrun⟩ := hch i hi
  have hout := hrun (sharedOut c.shared c.ins c.out, i) ⟨Or.inr rfl, hich⟩
  rw [run_chunkProg_pure _ _ c.f g hf.ret ch hnd _ i hich, prepare_sharedIns] at hout
  rw [hm']
  simp only [copyBack, hi, and_self, if_true]
  exact hout

/-- **C05** Two calls that differ only in `ncore`, `nchunk`, machine and schedule return the
same array. -/
theorem distribute_jobs_deterministic {α : Type} {cpu₁ cpu₂ : Nat} {debug₁ debug₂ : Bool}
    {c₁ c₂ : Call α} {m m₁ m₂ : Cell → α} {r₁ r₂ : Buf} {g : List α → α}
    (hf : PureSlicewise c₁.f g) (hn : c₁.n = c₂.n) (hi : c₁.ins = c₂.ins) (hff : c₁.f = c₂.f)
    (h₁ : DistributeJobs cpu₁ debug₁ c₁ (fun _ => false) m m₁ r₁)
    (h₂ : DistributeJobs cpu₂ debug₂ c₂ (fun _ => false) m m₂ r₂) :
    ∀ i < c₁.n, m₁ (r₁, i) = m₂ (r₂, i) := by
  intro i hlt
  rw [distribute_jobs_schedule_independent hf h₁ i hlt,
    distribute_jobs_schedule_independent (hff ▸ hf) h₂ i (hn ▸ hlt), hi]

theorem caller_notMem_sharedIns (shared : Nat → Bool) (k : Nat) (hs : shared k = false)
    (ks : List Nat) : ∀ j, Buf.caller k ∉ sharedIns shared j ks := by
  induction ks with
  | nil => intro j h; simp [sharedIns] at h
  | cons a as ih =>
    intro j h
    simp only [sharedIns, List.mem_cons, shareIn] at h
    rcases h with h | h
    · split at h
      · rename_i hsh
        cases h
        rw [hs] at hsh
        cases hsh
      · cases h
    · exact ih _ h

theorem sharedOut_none_mem (shared : Nat → Bool) (ins : List Nat) (hne : ins ≠ []) :
    sharedOut shared ins none ∈ sharedIns shared 0 ins := by
  cases ins with
  | nil => exact absurd rfl hne
  | cons a as =>
    simp only [sharedOut]
    rw [List.getLastD_eq_getLast?]
    cases hl : (sharedIns shared 0 (a :: as)).getLast? with
    | none => simp [sharedIns] at hl
    | some x => exact List.mem_of_getLast? hl

/-- **C05** The caller's arrays are not touched, except `out` and arrays that the caller
created as shared memory (those are worked on in place by design). -/
theorem distribute_jobs_frame {α : Type} {cpu : Nat} {debug : Bool} {c : Call α}
    {m m' : Cell → α} {res : Buf} (hne : c.ins ≠ [])
    (h : DistributeJobs cpu debug c (fun _ => false) m m' res)
    (k : Nat) (hs : c.shared k = false) (hk : c.out ≠ some k) (i : Nat) :
    m' (.caller k, i) = m (.caller k, i) := by
  obtain ⟨m1, hm', hres, _, hfr⟩ := dist_core h
  have hnin := caller_notMem_sharedIns c.shared k hs c.ins 0
  have hout : Buf.caller k ≠ sharedOut c.shared c.ins c.out := by
    cases ho : c.out with
    | none =>
      intro e
      exact hnin (e ▸ sharedOut_none_mem c.shared c.ins hne)
    | some o =>
      intro e
      simp only [sharedOut] at e
      split at e
      · cases e; exact hk ho
      · cases e
  have hres' : Buf.caller k ≠ res := by
    rw [hres]
    cases ho : c.out with
    | none => rw [ho] at hout; exact hout
    | some o =>
      intro e
      simp only [resultBuf] at e
      cases e
      exact hk ho
  rw [hm']
  simp only [copyBack, hres', false_and, if_false]
  rw [hfr]
  · rfl
  · rintro ⟨h1 | h1, _⟩
    · exact hnin h1
    · exact hout h1

/-- a concrete call used as witness: one ordinary array of 3 slices, doubling function -/
def demoCall (ncore : Option Nat) (nchunk : Option Nat) (raises : Nat → Bool) : Call Nat where
  n := 3
  ins := [0]
  out := none
  shared := fun _ => false
  f := { inplace := fun r => r, ret := fun r => some (r.map fun row => row.headD 0 * 2) }
  ncore := ncore
  nchunk := nchunk
  raises := raises

/-- Every accepted call has an outcome (there is a complete schedule), so the theorems about
`DistributeJobs` are not vacuous. -/
theorem distribute_jobs_total {α : Type} (cpu : Nat) (debug : Bool) (c : Call α)
    (sr : Nat → Bool) (m : Cell → α) (k nk : Nat)
    (h : getNcoreNchunk cpu c.n c.ncore c.nchunk = .ok (k, nk)) :
    ∃ m' res, DistributeJobs cpu debug c sr m m' res := by
  by_cases hc : k > 1 ∧ debug = false
  · let ins := sharedIns c.shared 0 c.ins
    let out := sharedOut c.shared c.ins c.out
    let chunks := (jobSlices c.n nk).map (Slc.indices c.n)
    obtain ⟨s, hs⟩ := exists_finished (List.range chunks.length)
      ⟨poolTask ins out c.f chunks c.raises, prepare c.ins c.out m⟩ (by
        intro i hi
        have : chunks[i]? = none := by simpa using hi
        simp [poolTask, this])
    have hfin : (Config.exec ⟨poolTask ins out c.f chunks c.raises, prepare c.ins c.out m⟩
        (s ++ List.range chunks.length)).Finished := by
      have stay : ∀ (l : List Nat) (cf : Config Nat Cell α), cf.Finished →
          (cf.exec l).Finished := by
        intro l
        induction l with
        | nil => intro cf h; exact h
        | cons a as ih =>
          intro cf h
          refine ih _ ?_
          intro i
          simp only [Config.step, h a, Prog.step]
          split
          · rfl
          · exact h i
      have := stay (List.range chunks.length) _ hs
      simpa [Config.exec, List.foldl_append] using this
    refine ⟨copyBack c.n out (resultBuf c.shared c.ins c.out)
      (poolRun ins out c.f chunks c.raises (s ++ List.range chunks.length)
        (prepare c.ins c.out m)), _, k, nk, h, rfl, ?_⟩
    rw [if_pos hc]
    exact ⟨s ++ List.range chunks.length, ⟨hfin, fun i hi _ =>
      List.mem_append_right _ (List.mem_range.2 hi)⟩, rfl⟩
  · refine ⟨copyBack c.n (sharedOut c.shared c.ins c.out) (resultBuf c.shared c.ins c.out)
      (serialRun (sharedIns c.shared 0 c.ins) (sharedOut c.shared c.ins c.out) c.f
        ((jobSlices c.n nk).map (Slc.indices c.n)) sr (prepare c.ins c.out m)), _, k, nk, h,
        rfl, ?_⟩
    rw [if_neg hc]

example : PureSlicewise (demoCall (some 2) none (fun k => k == 1)).f (fun row => row.headD 0 * 2) :=
  ⟨fun _ => rfl, fun _ => rfl⟩

example : ∃ m' res, DistributeJobs 4 false (demoCall (some 2) none fun k => k == 1)
    (fun _ => false) (fun c => c.2 + 5) m' res ∧ m' (res, 2) = 14 := by
  obtain ⟨m', res, h⟩ := distribute_jobs_total 4 false (demoCall (some 2) none fun k => k == 1)
    (fun _ => false) (fun c => c.2 + 5) 2 2 (by decide)
  exact ⟨m', res, h, distribute_jobs_schedule_independent ⟨fun _ => rfl, fun _ => rfl⟩ h 2
    (by decide)⟩

/-- **C06** In every complete pool run the host re-runs exactly the chunks that raised
`RunOnHostException`, each once. -/
theorem run_on_host_exactly_once {α : Type} (ins : List Buf) (out : Buf) (f : BlockFun α)
    (chunks : List (List Nat)) (raises : Nat → Bool) (m : Cell → α) (sched : List Nat)
    (hd : PoolDone ins out f chunks raises m sched) :
    (queueOf raises chunks.length sched).Nodup ∧
    ∀ k, k ∈ queueOf raises chunks.length sched ↔ (k < chunks.length ∧ raises k = true) := by
  refine ⟨nodup_queueOf _ _ _, fun k => ?_⟩
  rw [mem_queueOf]
  exact ⟨fun h => ⟨h.2.2, h.2.1⟩, fun h => ⟨hd.2 k h.1 h.2, h.2, h.1⟩⟩

/-- **C06** For every function (not only slice-wise ones), every set of raising chunks, every
schedule and hence every queue order, the memory after the pool run equals the memory
after running all chunks one after the other without any exception. -/
theorem run_on_host_completes {α : Type} (ins : List Buf) (out : Buf) (f : BlockFun α)
    (n nk : Nat) (raises : Nat → Bool) (m : Cell → α) (sched : List Nat)
    (hd : PoolDone ins out f ((jobSlices n nk).map (Slc.indices n)) raises m sched) :
    poolRun ins out f ((jobSlices n nk).map (Slc.indices n)) raises sched m
      = serialRun ins out f ((jobSlices n nk).map (Slc.indices n)) (fun _ => false) m := by
  have hnd : ((jobSlices n nk).map (Slc.indices n)).flatten.Nodup := by
    rw [jobChunks_flatten]; exact List.nodup_range
  obtain ⟨hA, hB⟩ := poolRun_spec ins out f hnd raises m sched hd
  obtain ⟨hC, hD⟩ := serialRun_spec ins out f hnd m
  funext l
  by_cases h : ∃ c ∈ (jobSlices n nk).map (Slc.indices n), wr ins out c l
  · obtain ⟨c, hc, hw⟩ := h
    obtain ⟨k, hk⟩ := List.mem_iff_getElem?.1 hc
    rw [hA k c hk l hw, hC k c hk l hw]
  · have h' : ∀ c ∈ (jobSlices n nk).map (Slc.indices n), ¬ wr ins out c l :=
      fun c hc hw => h ⟨c, hc, hw⟩
    rw [hB l h', hD l h']

example : PoolDone (α := Nat) [.caller 0] (.caller 0) (demoCall none none fun _ => false).f
    ((jobSlices 2 1).map (Slc.indices 2)) (fun _ => true) (fun _ => 7) [1, 0] :=
  ⟨fun i => by
    rcases i with _ | _ | i
    · rfl
    · rfl
    · rfl, by decide⟩

/-- **C06** (scope of the guarantee) If the function raises `RunOnHostException` while
`distribute_jobs` runs serially, the chunk is dropped silently: the returned slice is the
unprocessed input. -/
theorem run_on_host_serial_drops :
    ∃ (c : Call Nat) (sr : Nat → Bool) (m m' : Cell → Nat) (res : Buf),
      DistributeJobs 4 false c sr m m' res ∧ PureSlicewise c.f (fun row => row.headD 0 * 2) ∧
      m' (res, 0) = m (.caller 0, 0) ∧ m' (res, 0) ≠ 2 * m (.caller 0, 0) := by
  let c := demoCall (some 1) none (fun _ => false)
  refine ⟨c, fun _ => true, fun _ => 5,
    copyBack 3 (.copyIn 0) (.copyIn 0) (serialRun [.copyIn 0] (.copyIn 0) c.f
      ((jobSlices 3 3).map (Slc.indices 3)) (fun _ => true) (prepare [0] none fun _ => 5)),
    .copyIn 0, ⟨1, 3, by decide, rfl, ?_⟩, ⟨fun _ => rfl, fun _ => rfl⟩, ?_, ?_⟩
  · rw [if_neg (by decide)]
    rfl
  · rfl
  · decide

/-! ## C07 -/

theorem sharedIns_nodup (shared : Nat → Bool) (ks : List Nat) (hk : ks.Nodup) :
    ∀ j, (sharedIns shared j ks).Nodup ∧
      ∀ b ∈ sharedIns shared j ks, (∃ k ∈ ks, b = .caller k) ∨ ∃ i, j ≤ i ∧ b = .copyIn i := by
  induction ks with
  | nil => intro j; simp [sharedIns]
  | cons a as ih =>
    intro j
    rw [List.nodup_cons] at hk
    obtain ⟨h1, h2⟩ := ih hk.2 (j + 1)
    constructor
    · simp only [sharedIns, List.nodup_cons]
      refine ⟨?_, h1⟩
      intro hm
      unfold shareIn at hm
      split at hm
      · rcases h2 _ hm with ⟨k, hk', e⟩ | ⟨i, _, e⟩
        · cases e; exact hk.1 hk'
        · cases e
      · rcases h2 _ hm with ⟨k, _, e⟩ | ⟨i, hi, e⟩
        · cases e
        · cases e; omega
    · intro b hb
      simp only [sharedIns, List.mem_cons] at hb
      rcases hb with rfl | hb
      · unfold shareIn
        split
        · exact Or.inl ⟨a, List.mem_cons_self, rfl⟩
        · exact Or.inr ⟨j, Nat.le_refl _, rfl⟩
      · rcases h2 b hb with ⟨k, hk', e⟩ | ⟨i, hi, e⟩
        · exact Or.inl ⟨k, List.mem_cons_of_mem _ hk', e⟩
        · exact Or.inr ⟨i, by omega, e⟩

/-- A function that modifies the slices of its block in place (`h` maps the slices at one
position to their new contents) and returns `None`. -/
structure InPlaceSlicewise {α : Type} (f : BlockFun α) (h : List α → List α) : Prop where
  inplace : ∀ rows, f.inplace rows = rows.map h
  ret : ∀ rows, f.ret rows = none
  len : ∀ row, (h row).length = row.length

/-- **C07** With `out` omitted the returned array is the modified last input, for all
schedules. -/
theorem inplace_result_partial {α : Type} {cpu : Nat} {debug : Bool} {c : Call α}
    {m m' : Cell → α} {res : Buf} {g : List α → List α}
    (hf : InPlaceSlicewise c.f g) (hins : c.ins.Nodup) (hne : c.ins ≠ [])
    (hout : c.out = none)
    (h : DistributeJobs cpu debug c (fun _ => false) m m' res) :
    ∀ i < c.n, some (m' (res, i)) = (g (c.ins.map fun k => m (.caller k, i))).getLast? := by
  intro i hi
  obtain ⟨m1, hm', hres, ⟨_, nk, _, hch⟩, _⟩ := dist_core h
  obtain ⟨ch, _, hnd, hich, _, hrun⟩ := hch i hi
  have hnd' := (sharedIns_nodup c.shared c.ins hins 0).1
  have key := run_chunkProg_inplace (sharedIns c.shared 0 c.ins) hnd'
    (sharedOut c.shared c.ins c.out) c.f g hf.len hf.inplace hf.ret ch hnd
    (prepare c.ins c.out m) i hich
  rw [prepare_sharedIns] at key
  rw [← key, hm', hres]
  rw [hout] at hrun ⊢
  have hmem := sharedOut_none_mem c.shared c.ins hne
  simp only [copyBack, resultBuf, hi, and_self, if_true]
  rw [hrun (sharedOut c.shared c.ins none, i) ⟨Or.inr rfl, hich⟩]
  rw [List.getLast?_map]
  have : (sharedIns c.shared 0 c.ins).getLast? = some (sharedOut c.shared c.ins none) := by
    have hne' : sharedIns c.shared 0 c.ins ≠ [] := List.ne_nil_of_mem hmem
    simp only [sharedOut]
    rw [List.getLastD_eq_getLast?]
    cases hl : (sharedIns c.shared 0 c.ins).getLast? with
    | none => rw [List.getLast?_eq_none_iff] at hl; exact absurd hl hne'
    | some x => rfl
  rw [this]
  rfl

example : InPlaceSlicewise (α := Nat)
    { inplace := fun r => r.map fun row => row.map (· + 1), ret := fun _ => none }
    (fun row => row.map (· + 1)) := ⟨fun _ => rfl, fun _ => rfl, by simp⟩

/-- **C07** With `out` = the (only) input array in shared memory the modification is visible
in the returned array. -/
theorem inplace_out_shared_partial {α : Type} {cpu : Nat} {debug : Bool} {c : Call α}
    {m m' : Cell → α} {res : Buf} {g : List α → List α} {a : Nat}
    (hf : InPlaceSlicewise c.f g) (hins : c.ins = [a]) (hout : c.out = some a)
    (hs : c.shared a = true)
    (h : DistributeJobs cpu debug c (fun _ => false) m m' res) :
    ∀ i < c.n, res = .caller a ∧ [m' (res, i)] = g [m (.caller a, i)] := by
  intro i hi
  obtain ⟨m1, hm', hres, ⟨_, nk, _, hch⟩, _⟩ := dist_core h
  obtain ⟨ch, _, hnd, hich, _, hrun⟩ := hch i hi
  have hsi : sharedIns c.shared 0 c.ins = [.caller a] := by
    simp [hins, sharedIns, shareIn, hs]
  have hso : sharedOut c.shared c.ins c.out = .caller a := by simp [hout, sharedOut, hs]
  have key := run_chunkProg_inplace (sharedIns c.shared 0 c.ins) (by simp [hsi])
    (sharedOut c.shared c.ins c.out) c.f g hf.len hf.inplace hf.ret ch hnd
    (prepare c.ins c.out m) i hich
  rw [prepare_sharedIns] at key
  have hr : res = .caller a := by rw [hres, hout]; rfl
  refine ⟨hr, ?_⟩
  rw [hsi] at key
  have := hrun (.caller a, i) ⟨Or.inr hso.symm, hich⟩
  rw [hm', hr, hso]
  simp only [copyBack, hi, and_self, if_true]
  rw [this, hsi]
  simpa [hins] using key

/-- **C07** (refutation, general form) With `out` = the input array in ordinary memory, every
in-place modification is lost: the returned array is the unmodified input, whatever the
function does. -/
theorem inplace_out_lost {α : Type} {cpu : Nat} {debug : Bool} {c : Call α}
    {m m' : Cell → α} {res : Buf} {g : List α → List α} {a : Nat}
    (hf : InPlaceSlicewise c.f g) (hins : c.ins = [a]) (hout : c.out = some a)
    (hs : c.shared a = false)
    (h : DistributeJobs cpu debug c (fun _ => false) m m' res) :
    ∀ i < c.n, m' (res, i) = m (.caller a, i) := by
  intro i hi
  obtain ⟨m1, hm', hres, ⟨_, nk, _, hch⟩, _⟩ := dist_core h
  obtain ⟨ch, _, hnd, hich, _, hrun⟩ := hch i hi
  have hsi : sharedIns c.shared 0 c.ins = [.copyIn 0] := by
    simp [hins, sharedIns, shareIn, hs]
  have hso : sharedOut c.shared c.ins c.out = .copyOut := by simp [hout, sharedOut, hs]
  have := hrun (.copyOut, i) ⟨Or.inr hso.symm, hich⟩
  rw [hm', hso]
  simp only [copyBack, hi, and_self, if_true]
  rw [this, hsi, hso, run_chunkProg, hf.ret]
  simp only [outWrites, Prog.writeAll, Prog.run]
  rw [run_writeAll_not_mem]
  · simp [prepare, hout]
  · intro p hp e
    have := (rowWrites_mem hp).1
    rw [e] at this
    simp at this

/-- **C07** (refutation, concrete) `distribute_jobs(arr, f, out=arr)` with an in-place `f`
returns the old values. -/
theorem inplace_out_not_written :
    ∃ (c : Call Nat) (m m' : Cell → Nat) (res : Buf),
      InPlaceSlicewise c.f (fun row => row.map (· + 1)) ∧ c.ins = [0] ∧ c.out = some 0 ∧
      DistributeJobs 4 false c (fun _ => false) m m' res ∧
      m' (res, 0) ≠ m (.caller 0, 0) + 1 := by
  let c : Call Nat :=
    { n := 2, ins := [0], out := some 0, shared := fun _ => false,
      f := { inplace := fun r => r.map fun row => row.map (· + 1), ret := fun _ => none },
      ncore := none, nchunk := none, raises := fun _ => false }
  obtain ⟨m', res, h⟩ := distribute_jobs_total 4 false c (fun _ => false) (fun _ => 5) 2 1
    (by decide)
  have hf : InPlaceSlicewise c.f (fun row => row.map (· + 1)) :=
    ⟨fun _ => rfl, fun _ => rfl, by simp⟩
  refine ⟨c, fun _ => 5, m', res, hf, rfl, rfl, h, ?_⟩
  rw [inplace_out_lost hf rfl rfl rfl h 0 (by decide)]
  decide

/-! ## C13 -/

/-- **C13** Any nesting of `with set_numexpr_threads(...)` blocks, with exceptions raised
anywhere, leaves the thread count as it was, and no body inside a block runs with more
threads than there are cpus. -/
theorem numexpr_threads_restored (cpu : Nat) (p : NeProg) :
    ∀ t, (p.exec cpu t).1 = t := by
  induction p with
  | skip => intro t; rfl
  | raise => intro t; rfl
  | seq p q ihp ihq =>
    intro t
    simp only [NeProg.exec]
    split
    · exact ihp t
    · simp only [ihp, ihq]
  | withThreads n body ih => intro t; rfl

/-- **C13** Bodies never run with more threads than cpus if the count was admissible before,
and inside a block this holds in any case. -/
theorem numexpr_threads_bounded (cpu : Nat) (p : NeProg) :
    ∀ t, t ≤ cpu → ∀ u ∈ (p.exec cpu t).2.1, u ≤ cpu := by
  induction p with
  | skip => intro t h u hu; simp [NeProg.exec] at hu; omega
  | raise => intro t h u hu; simp [NeProg.exec] at hu; omega
  | seq p q ihp ihq =>
    intro t h u hu
    simp only [NeProg.exec] at hu
    split at hu
    · exact ihp t h u hu
    · rw [numexpr_threads_restored cpu p] at hu
      rcases List.mem_append.1 hu with hu | hu
      · exact ihp t h u hu
      · exact ihq t h u hu
  | withThreads n body ih =>
    intro t h u hu
    refine ih (neWanted cpu n) ?_ u hu
    unfold neWanted
    split
    · exact Nat.le_refl _
    · split <;> omega

/-- **C13** The count requested is the one in force inside the block (clipped to the cpus). -/
theorem numexpr_threads_in_force (cpu n t : Nat) :
    ((NeProg.withThreads (some n) .skip).exec cpu t).2.1 = [min n cpu] := by
  simp only [NeProg.exec, neWanted]
  split <;> simp <;> omega

example : (NeProg.withThreads (some 3) (.seq .skip (.withThreads none .raise))).exec 8 5
    = (5, [3, 8], true) := by decide

end Tomopy.Mproc
