import Verif.Recon.Lemmas
import Verif.Mproc.Props

/-! Theorems about `recon` (C08-C12). -/
namespace Tomopy.Recon
open Tomopy.Par Tomopy.Mproc

/-! ### C08: the reconstruction does not depend on the distribution -/

theorem localKernel_length {α : Type} (g : α → α → α → α) (rows : List (α × α × α)) :
    (localKernel g rows).length = rows.length := by simp [localKernel]

theorem firstCenterKernel_length {α : Type} (g : α → α → α → α) (rows : List (α × α × α)) :
    (firstCenterKernel g rows).length = rows.length := by
  cases rows <;> simp [firstCenterKernel]

theorem pairKernel_length {α : Type} (g : α → α → α → α) :
    ∀ rows : List (α × α × α), (pairKernel g rows).length = rows.length
  | [] => rfl
  | [_] => rfl
  | _ :: _ :: rs => by simp [pairKernel, pairKernel_length g rs]

/-- the result of `_dist_recon`: every slice of `recon` was reconstructed by `g` from its own
sinogram, its own centre and its own initial image; data and centres are as before -/
def SlicewiseResult {α : Type} (n : Nat) (g : α → α → α → α) (m m' : Cell → α) : Prop :=
  (∀ i < n, m' (reconB, i) = g (m (tomoB, i)) (m (centerB, i)) (m (reconB, i))) ∧
  (∀ i, m' (tomoB, i) = m (tomoB, i)) ∧ (∀ i, m' (centerB, i) = m (centerB, i)) ∧
  (∀ b i, (b ∉ [tomoB, centerB, reconB] ∨ n ≤ i) → m' (b, i) = m (b, i))

/-- if on all used blocks the kernel is slice-wise, so is the result -/
theorem slicewise_of_blocks {α : Type} {cpu n : Nat} (hcpu : 1 ≤ cpu)
    {ncore nchunk limit : Option Nat} {k : Kernel α} {m m' : Cell → α}
    (hk : ∀ rows, (k rows).length = rows.length) (g : α → α → α → α)
    (hloc : ∀ c : List Nat, (∀ i ∈ c, i < n) →
      k (c.map (trip m)) = c.map fun i => g (m (tomoB, i)) (m (centerB, i)) (m (reconB, i)))
    (h : DistRecon cpu n ncore nchunk limit k m m') : SlicewiseResult n g m m' := by
  obtain ⟨nc, slcs, _, hfl, hb, hfr⟩ := dist_blocks hcpu hk h
  have find : ∀ i < n, ∃ c ∈ useChunks n slcs, i ∈ c := by
    intro i hi
    have : i ∈ (useChunks n slcs).flatten := by rw [hfl]; exact List.mem_range.2 hi
    exact List.mem_flatten.1 this
  have lt : ∀ c ∈ useChunks n slcs, ∀ i ∈ c, i < n := by
    intro c hc i hi
    have : i ∈ (useChunks n slcs).flatten := List.mem_flatten.2 ⟨c, hc, hi⟩
    rw [hfl] at this
    exact List.mem_range.1 this
  refine ⟨?_, ?_, ?_, hfr⟩
  · intro i hi
    obtain ⟨c, hc, hic⟩ := find i hi
    have e := (hb c hc).1
    rw [hloc c (lt c hc)] at e
    exact List.map_inj_left.1 e i hic
  · intro i
    by_cases hi : i < n
    · obtain ⟨c, hc, hic⟩ := find i hi
      exact (hb c hc).2.1 i hic
    · exact hfr _ _ (Or.inr (by omega))
  · intro i
    by_cases hi : i < n
    · obtain ⟨c, hc, hic⟩ := find i hi
      exact (hb c hc).2.2 i hic
    · exact hfr _ _ (Or.inr (by omega))

/-- **C08 (partial)** For a kernel that treats each slice with its own centre, every outcome of
`_dist_recon`, for every number of cores, chunk size, thread limit and thread schedule, is
the slice-wise reconstruction; nothing else changes. -/
theorem recon_distribution_independent_partial {α : Type} {cpu n : Nat} (hcpu : 1 ≤ cpu)
    {ncore nchunk limit : Option Nat} (g : α → α → α → α) {m m' : Cell → α}
    (h : DistRecon cpu n ncore nchunk limit (localKernel g) m m') :
    SlicewiseResult n g m m' := by
  refine slicewise_of_blocks hcpu (localKernel_length g) g ?_ h
  intro c _
  simp [localKernel, trip, Function.comp_def]

/-- **C08** Two runs with different distribution parameters give the same memory. -/
theorem recon_same_for_all_distributions {α : Type} {cpu cpu' n : Nat} (hcpu : 1 ≤ cpu)
    (hcpu' : 1 ≤ cpu') {ncore nchunk limit ncore' nchunk' limit' : Option Nat}
    (g : α → α → α → α) {m m1 m2 : Cell → α}
    (h1 : DistRecon cpu n ncore nchunk limit (localKernel g) m m1)
    (h2 : DistRecon cpu' n ncore' nchunk' limit' (localKernel g) m m2) : m1 = m2 := by
  obtain ⟨a1, a2, a3, a4⟩ := recon_distribution_independent_partial hcpu g h1
  obtain ⟨b1, b2, b3, b4⟩ := recon_distribution_independent_partial hcpu' g h2
  funext ⟨b, i⟩
  by_cases hb : b ∈ [tomoB, centerB, reconB] ∧ i < n
  · obtain ⟨hb, hi⟩ := hb
    simp only [List.mem_cons, List.not_mem_nil, or_false] at hb
    rcases hb with rfl | rfl | rfl
    · rw [a2, b2]
    · rw [a3, b3]
    · rw [a1 i hi, b1 i hi]
  · have : b ∉ [tomoB, centerB, reconB] ∨ n ≤ i := by
      by_cases h : b ∈ [tomoB, centerB, reconB]
      · right; exact Nat.le_of_not_lt fun hi => hb ⟨h, hi⟩
      · exact Or.inl h
    rw [a4 b i this, b4 b i this]

/-- **C08 (partial)** `art` and `gridrec` use the centre of another slice of the block; if all
centres agree they too are slice-wise for every distribution. -/
theorem recon_shared_center_equal_partial {α : Type} {cpu n : Nat} (hcpu : 1 ≤ cpu)
    {ncore nchunk limit : Option Nat} (g : α → α → α → α) {m m' : Cell → α} (c0 : α)
    (hc : ∀ i < n, m (centerB, i) = c0)
    (h : DistRecon cpu n ncore nchunk limit (firstCenterKernel g) m m' ∨
      DistRecon cpu n ncore nchunk limit (pairKernel g) m m') :
    SlicewiseResult n g m m' := by
  rcases h with h | h
  · refine slicewise_of_blocks hcpu (firstCenterKernel_length g) g ?_ h
    intro c hcn
    cases c with
    | nil => rfl
    | cons a as =>
      have e : ∀ i ∈ a :: as, m (centerB, i) = m (centerB, a) := fun i hi => by
        rw [hc i (hcn i hi), hc a (hcn a List.mem_cons_self)]
      show ((a :: as).map (trip m)).map (fun r => g r.1 (trip m a).2.1 r.2.2) = _
      rw [List.map_map]
      refine List.map_congr_left ?_
      intro i hi
      simp only [Function.comp, trip, e i hi]
  · refine slicewise_of_blocks hcpu (pairKernel_length g) g ?_ h
    intro c
    induction c using List.twoStepInduction with
    | nil => intro _; rfl
    | singleton a => intro _; rfl
    | cons_cons a b as ih _ =>
      intro hcn
      have e : m (centerB, b) = m (centerB, a) := by
        rw [hc b (hcn b (by simp)), hc a (hcn a (by simp))]
      show _ :: _ :: pairKernel g (as.map (trip m)) = _
      rw [ih fun i hi => hcn i (by simp [hi])]
      simp [trip, e]

/-- outcomes exist whenever there is something to do and the limit is not zero -/
theorem recon_total {α : Type} {cpu n : Nat} (hcpu : 1 ≤ cpu) (hn : 1 ≤ n)
    (ncore nchunk limit : Option Nat) (hl : limit ≠ some 0) (k : Kernel α) (m : Cell → α) :
    ∃ m', DistRecon cpu n ncore nchunk limit k m m' := by
  obtain ⟨nc, slcs, hs, hcov, hne, h1, _⟩ := ncore_slices_cover cpu n hcpu hn ncore nchunk
  have hlen : slcs ≠ [] := by
    rintro rfl
    unfold CoversExactly at hcov
    have : (0 : Nat) ∈ List.range n := List.mem_range.2 hn
    rw [← hcov] at this
    simp at this
  have huc : useChunks n slcs = slcs.map (Slc.indices n) := by
    unfold useChunks
    rw [List.filter_eq_self]
    intro c hc
    obtain ⟨s, hs, rfl⟩ := List.mem_map.1 hc
    simpa using hne s hs
  have hpos : 0 < limitedCores (min (min nc slcs.length) (useChunks n slcs).length) limit := by
    have : 0 < slcs.length := List.length_pos_iff.2 hlen
    rw [huc, List.length_map]
    unfold limitedCores
    split
    · omega
    · rename_i l
      have : l ≠ 0 := fun e => hl (by rw [e])
      split <;> omega
  by_cases h1 : limitedCores (min (min nc slcs.length) (useChunks n slcs).length) limit = 1
  · refine ⟨serialRun [tomoB, centerB, reconB] reconB (kernelFun k) (useChunks n slcs)
      (fun _ => false) m, nc, slcs, hs, hpos, ?_⟩
    simp only [h1, if_true]
  · obtain ⟨s, hs'⟩ := exists_finished (List.range (useChunks n slcs).length)
      ⟨poolTask [tomoB, centerB, reconB] reconB (kernelFun k) (useChunks n slcs)
        (fun _ => false), m⟩ (by
        intro i hi
        have : (useChunks n slcs)[i]? = none := by simpa using hi
        simp [poolTask, this])
    refine ⟨(Config.exec ⟨poolTask [tomoB, centerB, reconB] reconB (kernelFun k)
      (useChunks n slcs) (fun _ => false), m⟩ s).mem, nc, slcs, hs, hpos, ?_⟩
    simp only [h1, if_false]
    exact ⟨s, hs', rfl⟩

/-- non-trivial instance: five slices on four threads against one thread -/
example (m : Cell → Int) :
    ∃ m1 m2, DistRecon 4 5 (some 4) none (some 3) (localKernel fun t c x => t * c + x) m m1 ∧
      DistRecon 4 5 (some 1) (some 2) none (localKernel fun t c x => t * c + x) m m2 ∧
      m1 = m2 := by
  obtain ⟨m1, h1⟩ := recon_total (by decide : 1 ≤ 4) (by decide : 1 ≤ 5) (some 4) none (some 3)
    (by decide) (localKernel fun t c x => t * c + x) m
  obtain ⟨m2, h2⟩ := recon_total (by decide : 1 ≤ 4) (by decide : 1 ≤ 5) (some 1) (some 2) none
    (by decide) (localKernel fun t c x => t * c + x) m
  exact ⟨m1, m2, h1, h2,
    recon_same_for_all_distributions (by decide) (by decide) _ h1 h2⟩

/-- blocks of two slices on one and on two cores -/
theorem two_slices_blocks {α : Type} {k : Kernel α} {m m1 m2 : Cell → α}
    (hk : ∀ rows, (k rows).length = rows.length)
    (h1 : DistRecon 4 2 (some 1) none none k m m1)
    (h2 : DistRecon 4 2 (some 2) none none k m m2) :
    [m1 (reconB, 0), m1 (reconB, 1)] = k [trip m 0, trip m 1] ∧
    [m2 (reconB, 1)] = k [trip m 1] := by
  constructor
  · obtain ⟨nc, slcs, hs, _, hb, _⟩ := dist_blocks (by decide) hk h1
    have e : getNcoreSlices 4 2 (some 1) none = .ok (1, [Slc.range 0 2]) := by decide
    rw [e] at hs
    simp only [Except.ok.injEq, Prod.mk.injEq] at hs
    rw [← hs.2] at hb
    have := (hb [0, 1] (by decide)).1
    simpa using this
  · obtain ⟨nc, slcs, hs, _, hb, _⟩ := dist_blocks (by decide) hk h2
    have e : getNcoreSlices 4 2 (some 2) none = .ok (2, [Slc.range 0 1, Slc.range 1 2]) := by
      decide
    rw [e] at hs
    simp only [Except.ok.injEq, Prod.mk.injEq] at hs
    rw [← hs.2] at hb
    have := (hb [1] (by decide)).1
    simpa using this

/-- **C08 (refutation)** With `art` or `gridrec` and per-slice centres, the same call with one
and with two cores gives different reconstructions of slice 1 whenever the single-slice
reconstruction depends on the centre; the one-core result uses the centre of slice 0. -/
theorem recon_depends_on_ncore {α : Type} (g : α → α → α → α) (k : Kernel α)
    (hk : k = firstCenterKernel g ∨ k = pairKernel g) (m : Cell → α)
    (hg : g (m (tomoB, 1)) (m (centerB, 0)) (m (reconB, 1)) ≠
      g (m (tomoB, 1)) (m (centerB, 1)) (m (reconB, 1))) :
    (∃ m1, DistRecon 4 2 (some 1) none none k m m1) ∧
    (∃ m2, DistRecon 4 2 (some 2) none none k m m2) ∧
    ∀ m1 m2, DistRecon 4 2 (some 1) none none k m m1 →
      DistRecon 4 2 (some 2) none none k m m2 →
      m1 (reconB, 1) = g (m (tomoB, 1)) (m (centerB, 0)) (m (reconB, 1)) ∧
      m1 (reconB, 1) ≠ m2 (reconB, 1) := by
  have hlen : ∀ rows, (k rows).length = rows.length := by
    rcases hk with rfl | rfl
    · exact firstCenterKernel_length g
    · exact pairKernel_length g
  refine ⟨recon_total (by decide) (by decide) _ _ _ (by decide) k m,
    recon_total (by decide) (by decide) _ _ _ (by decide) k m, ?_⟩
  intro m1 m2 h1 h2
  obtain ⟨e1, e2⟩ := two_slices_blocks hlen h1 h2
  rcases hk with rfl | rfl <;>
  · simp [firstCenterKernel, pairKernel, trip] at e1 e2
    rw [e1.2, e2]
    exact ⟨rfl, hg⟩

example : ∃ m : Cell → Int, (fun t c x => t + c * x : Int → Int → Int → Int) (m (tomoB, 1))
    (m (centerB, 0)) (m (reconB, 1)) ≠ (fun t c x => t + c * x) (m (tomoB, 1)) (m (centerB, 1))
    (m (reconB, 1)) := ⟨fun c => c.2, by decide⟩

/-! ### C09: argument checking -/

/-- Specification: the keywords documented for an algorithm (docstring of `recon`). -/
def documented (a : String) : Option (List String) :=
  (table0 a).map (· ++ (accelKwargs a).getD [])

theorem documented_default (c : Call) {a : String} {l : List String}
    (h : documented a = some l) : ∀ k ∈ l, (defaults c.dy c.dt c.dx).get? k ≠ none := by
  unfold documented at h
  cases ht : table0 a with
  | none => rw [ht] at h; cases h
  | some l' =>
    rw [ht] at h
    simp only [Option.map_some, Option.some.injEq] at h
    subst h
    exact defaults_complete _ _ _ a l' ht

/-- what `checkCall` does for a named algorithm, from any reachable table -/
theorem checkCall_name {t : Table} (ht : Reach t) (c : Call) (a : String)
    (ha : c.alg = .name a) :
    (checkCall t c).2 =
      if c.dt ≠ c.ntheta then .error .value
      else match documented a with
        | none => .error .value
        | some l =>
          if c.kwargs.all (fun p => l.contains p.1) then do
            let kw ← fillDefaults (defaults c.dy c.dt c.dx) l c.kwargs
            if c.dy ≠ c.ncenter then throw .value
            return kw
          else .error .value := by
  obtain ⟨n, hn⟩ := extended_entry ht a
  unfold checkCall
  by_cases hth : c.dt ≠ c.ntheta
  · rw [if_pos hth, if_pos hth]
  · rw [if_neg hth, if_neg hth, ha]
    simp only
    rw [hn]
    unfold documented
    cases h0 : table0 a with
    | none => rfl
    | some l =>
      simp only [Option.map_some]
      have hall : (c.kwargs.all fun p =>
          (l ++ (List.replicate (n + 1) ((accelKwargs a).getD [])).flatten).contains p.1)
          = c.kwargs.all fun p => (l ++ (accelKwargs a).getD []).contains p.1 := by
        congr 1
        funext p
        rw [Bool.eq_iff_iff]
        simp only [List.contains_iff_mem, List.mem_append, mem_replicate_flatten]
      rw [hall, fillDefaults_repeat _ _ _ _ (defaults_complete _ _ _ a l h0)]
      split <;> rfl

/-- **C09** The outcome of the checks (error or completed keywords) of a call does not depend
on the calls made earlier in the process, although the module level table grows. -/
theorem recon_check_history_independent (hist : List Call) (c : Call) :
    (checkCall (runHistory table0 hist) c).2 = (checkCall table0 c).2 := by
  cases ha : c.alg with
  | name a =>
    rw [checkCall_name (reach_history hist reach0) c a ha, checkCall_name reach0 c a ha]
  | callable => unfold checkCall; rw [ha]; split <;> rfl
  | other => unfold checkCall; rw [ha]; split <;> rfl

/-- **C09** After any history, a call with a named algorithm passes the checks iff the number
of angles fits, the algorithm is known, every keyword is documented for it and the number
of centres fits; otherwise it is a `ValueError`. -/
theorem recon_accepts_iff (hist : List Call) (c : Call) (a : String) (ha : c.alg = .name a) :
    ((∃ kw, (checkCall (runHistory table0 hist) c).2 = .ok kw) ↔
      (c.dt = c.ntheta ∧ c.dy = c.ncenter ∧
        ∃ l, documented a = some l ∧ ∀ p ∈ c.kwargs, p.1 ∈ l)) ∧
    ∀ e, (checkCall (runHistory table0 hist) c).2 = .error e → e = .value := by
  rw [checkCall_name (reach_history hist reach0) c a ha]
  by_cases hth : c.dt = c.ntheta
  swap
  · simp [hth]
  · cases hd : documented a with
    | none => simp [hth]
    | some l =>
      obtain ⟨d', hf, _⟩ := fillDefaults_ok (defaults c.dy c.dt c.dx) l
        (documented_default c hd) c.kwargs
      by_cases hk : ∀ p ∈ c.kwargs, p.1 ∈ l
      · have hk' : (c.kwargs.all fun p => l.contains p.1) = true := by
          simpa [List.all_eq_true] using hk
        have hth' : ¬ c.dt ≠ c.ntheta := fun h => h hth
        rw [if_neg hth']
        simp only [hf, bind, Except.bind]
        rw [if_pos hk']
        by_cases hc : c.dy = c.ncenter
        · have hc' : ¬ c.dy ≠ c.ncenter := fun h => h hc
          rw [if_neg hc']
          exact ⟨⟨fun _ => ⟨hth, hc, l, rfl, hk⟩, fun _ => ⟨d', rfl⟩⟩, fun e h => by cases h⟩
        · rw [if_pos hc]
          refine ⟨⟨fun h => (by obtain ⟨_, h⟩ := h; cases h), fun h => absurd h.2.1 hc⟩, fun e h => ?_⟩
          exact (Except.error.inj h).symm
      · have hk' : ¬ (c.kwargs.all fun p => l.contains p.1) = true := by
          simpa [List.all_eq_true] using hk
        simp only [ne_eq, hth, not_true_eq_false, if_false, hk', reduceCtorEq, exists_false,
          false_iff, Except.error.injEq]
        refine ⟨?_, fun e h => h.symm⟩
        rintro ⟨_, _, l', hl', hp⟩
        rw [Option.some.injEq] at hl'
        subst hl'
        exact hk hp

/-- demo call of `mlem` with an accelerated keyword -/
def demoMlem : Call :=
  ⟨3, 4, 5, 4, .name "mlem", [("num_iter", .int 7), ("device", .str "cpu")], 3, none⟩

example : ∃ kw, (checkCall (runHistory table0 [demoMlem, demoMlem]) demoMlem).2 = .ok kw :=
  (recon_accepts_iff [demoMlem, demoMlem] demoMlem "mlem" rfl).1.2
    ⟨rfl, rfl, _, rfl, by decide⟩

/-- and a keyword of another algorithm is refused -/
example : (checkCall (runHistory table0 [demoMlem])
    { demoMlem with alg := .name "art" }).2 = .error .value := by decide

/-- the table itself does change: six more entries per `mlem` call -/
theorem recon_table_grows :
    (runHistory table0 [demoMlem, demoMlem] "mlem").map List.length = some 15 ∧
    (table0 "mlem").map List.length = some 3 := by decide

/-! ### C11: defaults and shape -/

/-- **C11** When a call is accepted, every keyword the kernel needs has a value, keywords given
by the caller keep the caller's value, the others get the default. -/
theorem recon_defaults (hist : List Call) (c : Call) (a : String) (ha : c.alg = .name a)
    (kw : Dict KwVal) (h : (checkCall (runHistory table0 hist) c).2 = .ok kw) :
    ∃ l, documented a = some l ∧ (∀ k ∈ l, kw.get? k ≠ none) ∧
      ∀ k, kw.get? k = match c.kwargs.get? k with
        | some v => some v
        | none => if k ∈ l then (defaults c.dy c.dt c.dx).get? k else none := by
  rw [checkCall_name (reach_history hist reach0) c a ha] at h
  split at h
  · cases h
  · cases hd : documented a with
    | none => rw [hd] at h; cases h
    | some l =>
      rw [hd] at h
      obtain ⟨d', hf, hg⟩ := fillDefaults_ok (defaults c.dy c.dt c.dx) l
        (documented_default c hd) c.kwargs
      simp only [hf, bind, Except.bind] at h
      split at h
      · split at h
        · cases h
        · have e : d' = kw := by simpa [pure, Except.pure] using h
          subst e
          refine ⟨l, rfl, ?_, ?_⟩
          · intro k hk
            rw [hg k, if_pos hk]
            have := documented_default c hd k hk
            cases c.kwargs.get? k <;> simp [this]
          · intro k
            rw [hg k]
            cases c.kwargs.get? k <;> rfl
      · cases h

/-- **C11 (partial)** Without `init_recon` and with integer grid sizes (or none given) the
result has shape `(number of slices, num_gridx, num_gridy)`, where a missing grid size is
the number of detector pixels. -/
theorem recon_shape_partial (hist : List Call) (c : Call) (a : String) (ha : c.alg = .name a)
    (hi : c.initShape = none) (gx gy : Nat)
    (hx : c.kwargs.get? "num_gridx" = some (.int gx) ∨
      (c.kwargs.get? "num_gridx" = none ∧ gx = c.dx))
    (hy : c.kwargs.get? "num_gridy" = some (.int gy) ∨
      (c.kwargs.get? "num_gridy" = none ∧ gy = c.dx))
    (kw : Dict KwVal) (h : (checkCall (runHistory table0 hist) c).2 = .ok kw) :
    reconShape c kw = some [c.dy, gx, gy] := by
  obtain ⟨l, hl, _, hv⟩ := recon_defaults hist c a ha kw h
  have hmem : "num_gridx" ∈ l ∧ "num_gridy" ∈ l := by
    unfold documented at hl
    unfold table0 at hl
    split at hl <;> first
      | (simp only [Option.map_some, Option.some.injEq] at hl; subst hl; simp)
      | cases hl
  have ex : kw.get? "num_gridx" = some (.int gx) := by
    rw [hv]
    rcases hx with e | ⟨e, rfl⟩ <;> rw [e]
    simp only [hmem.1, if_true]
    rfl
  have ey : kw.get? "num_gridy" = some (.int gy) := by
    rw [hv]
    rcases hy with e | ⟨e, rfl⟩ <;> rw [e]
    simp only [hmem.2, if_true]
    rfl
  unfold reconShape
  rw [hi, ex, ey]

example : ∃ kw, (checkCall table0 demoMlem).2 = .ok kw ∧
    reconShape demoMlem kw = some [3, 5, 5] ∧ kw.get? "num_iter" = some (.int 7) ∧
    kw.get? "interpolation" = some (.str "NN") := by
  obtain ⟨kw, h⟩ := (recon_accepts_iff [] demoMlem "mlem" rfl).1.2 ⟨rfl, rfl, _, rfl, by decide⟩
  obtain ⟨l, hl, _, hv⟩ := recon_defaults [] demoMlem "mlem" rfl kw h
  refine ⟨kw, h, recon_shape_partial [] demoMlem "mlem" rfl rfl 5 5 (Or.inr (by decide))
    (Or.inr (by decide)) kw h, ?_, ?_⟩
  · rw [hv]; rfl
  · rw [hv]
    have : l = _ := (Option.some.inj hl).symm
    subst this
    decide

/-- **C11 (refutation)** The shape of a given `init_recon` is not checked: a call that passes
all checks returns an array of the shape of `init_recon`, whatever the grid size says. -/
theorem recon_init_shape_unchecked (c : Call) (s : List Nat) (kw : Dict KwVal)
    (hi : c.initShape = some s) : reconShape c kw = some s ∧
    ∃ c' : Call, c'.dy = 3 ∧ c'.initShape = some [1, 2, 2] ∧
      ∃ kw', (checkCall table0 c').2 = .ok kw' ∧
        reconShape c' kw' = some [1, 2, 2] := by
  refine ⟨by unfold reconShape; rw [hi], { demoMlem with initShape := some [1, 2, 2] }, rfl,
    rfl, ?_⟩
  obtain ⟨kw', h⟩ := (recon_accepts_iff [] { demoMlem with initShape := some [1, 2, 2] }
    "mlem" rfl).1.2 ⟨rfl, rfl, _, rfl, by decide⟩
  exact ⟨kw', h, rfl⟩

/-- **C11** A wrong number of angles is refused with `ValueError` before anything else: the
module table is untouched. -/
theorem recon_theta_mismatch (t : Table) (c : Call) (h : c.dt ≠ c.ntheta) :
    checkCall t c = (t, .error .value) := by
  unfold checkCall
  rw [if_pos h]

example : checkCall table0 { demoMlem with ntheta := 9 } = (table0, .error .value) :=
  recon_theta_mismatch _ _ (by decide)

/-! ### C10: TOMOPY_PYTHON_THREADS -/

/-- **C10 (partial)** If no worker raises and the limit is not zero the environment variable
has its old value after the call, and the number of threads used respects the limit. -/
theorem env_restored_partial (env : Option Nat) (nc : Nat) (oks : List Bool)
    (hnc : 1 ≤ nc) (hl : env ≠ some 0) (hok : ∀ b ∈ oks, b = true) :
    distEnv env nc oks = (env, .ok ()) ∧ limitedCores nc env ≤ nc ∧
      ∀ l, env = some l → limitedCores nc env ≤ l := by
  have hpos : limitedCores nc env ≠ 0 := by
    unfold limitedCores
    split
    · omega
    · rename_i l
      have : l ≠ 0 := fun e => hl (by rw [e])
      split <;> omega
  refine ⟨?_, ?_, ?_⟩
  · unfold distEnv
    simp only [hpos, if_false]
    have : oks.all id = true := by simpa [List.all_eq_true] using hok
    rw [this]
    cases env <;> rfl
  · unfold limitedCores
    split
    · exact le_refl _
    · split <;> omega
  · rintro l rfl
    unfold limitedCores
    simp only
    split <;> omega

example : distEnv (some 2) 8 [true, true, true] = (some 2, .ok ()) :=
  (env_restored_partial (some 2) 8 _ (by decide) (by decide) (by decide)).1

/-- **C10** Exact condition: the variable is as before iff all workers succeed or it already
had the value written by the call. -/
theorem env_restored_iff (env : Option Nat) (nc : Nat) (oks : List Bool)
    (hnc : 1 ≤ nc) (hl : env ≠ some 0) :
    (distEnv env nc oks).1 = env ↔
      ((∀ b ∈ oks, b = true) ∨ ∃ l, env = some l ∧ l ≤ nc) := by
  have hpos : limitedCores nc env ≠ 0 := by
    unfold limitedCores
    split
    · omega
    · rename_i l
      have : l ≠ 0 := fun e => hl (by rw [e])
      split <;> omega
  by_cases hok : ∀ b ∈ oks, b = true
  · rw [(env_restored_partial env nc oks hnc hl hok).1]
    simp only [true_iff]
    exact Or.inl hok
  · have hall : oks.all id = false := by
      simpa [List.all_eq_true] using hok
    unfold distEnv
    simp only [hpos, if_false, hall, hok, false_or, Bool.false_eq_true]
    cases env with
    | none => simp
    | some l =>
      simp only [limitedCores, Option.some.injEq, exists_eq_left']
      split <;> omega

/-- **C10 (refutation)** After a call whose worker raised, the variable is left set although
the caller had not set it, and it limits all later calls in the process: a call that asks
for 8 threads gets 2. -/
theorem env_leak_limits_later :
    (distEnv none 2 [false]).1 = some 2 ∧
    runCalls none [(2, [false]), (8, [true])] = (some 2, [2, 2]) ∧
    runCalls none [(2, [true]), (8, [true])] = (none, [2, 8]) := by decide

/-- **C10** After any history of calls in which nobody raises, each call uses what it would
use alone and the variable is as at the start. -/
theorem env_history_partial (env : Option Nat) (hl : env ≠ some 0)
    (calls : List (Nat × List Bool))
    (h : ∀ c ∈ calls, 1 ≤ c.1 ∧ ∀ b ∈ c.2, b = true) :
    runCalls env calls = (env, calls.map fun c => limitedCores c.1 env) := by
  induction calls with
  | nil => rfl
  | cons c cs ih =>
    obtain ⟨nc, oks⟩ := c
    have h1 := h (nc, oks) List.mem_cons_self
    have e := (env_restored_partial env nc oks h1.1 hl h1.2).1
    simp only [runCalls, e, ih fun x hx => h x (List.mem_cons_of_mem _ hx), List.map_cons]

example : runCalls (some 3) [(2, [true]), (8, [true, true])] = (some 3, [2, 3]) :=
  env_history_partial (some 3) (by decide) _ (by decide)

/-! ### C12: data order -/

/-- **C12** Projections order data `a` and the same data handed over in sinogram order are
reconstructed from the same array. -/
theorem sinogram_order_equiv {α : Type} (a : Arr3 α) :
    initTomo a false = initTomo (swap01 a) true ∧
    initTomo (swap01 a) false = initTomo a true := ⟨rfl, rfl⟩

/-- **C12** Entry (slice, angle, pixel) of the array that is reconstructed, for both orders;
the first axis is the slice axis. -/
theorem init_tomo_entries {α : Type} (nt ny nx : Nat) (f : Nat → Nat → Nat → α) (s t x : Nat) :
    (initTomo ⟨nt, ny, nx, fun t s x => f t s x⟩ false).get s t x = f t s x ∧
    (initTomo ⟨ny, nt, nx, fun s t x => f t s x⟩ true).get s t x = f t s x ∧
    (initTomo ⟨nt, ny, nx, fun t s x => f t s x⟩ false).d0 = ny ∧
    (initTomo ⟨nt, ny, nx, fun t s x => f t s x⟩ false).d1 = nt ∧
    (initTomo ⟨nt, ny, nx, fun t s x => f t s x⟩ false).d2 = nx := ⟨rfl, rfl, rfl, rfl, rfl⟩

/-- **C12** Exchanging the axes twice is the identity. -/
theorem swap01_involutive {α : Type} (a : Arr3 α) : swap01 (swap01 a) = a := rfl

example : (initTomo (⟨2, 3, 1, fun t s _ => 10 * t + s⟩ : Arr3 Nat) false).get 2 1 0 = 12 := rfl

end Tomopy.Recon
