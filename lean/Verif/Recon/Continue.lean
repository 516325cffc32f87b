import Verif.Recon.Kernels
import Verif.Iter.Continue

/-! # Continuing a reconstruction with `init_recon` (C175)

`recon` with `init_recon` set to the result of an earlier call goes on where that call stopped. -/

set_option linter.unusedSectionVars false

namespace Tomopy.Recon

open Tomopy.Par Tomopy.Mproc Tomopy.Iter

variable {K : Type} [Field K] [LinearOrder K] [IsStrictOrderedRing K]

/-! ## Model -/

/-- What may differ between the calls of a series (`source/tomopy/recon/algorithm.py:106-114,392-420`): the
machine, `ncore`, `nchunk`, the environment variable TOMOPY_PYTHON_THREADS and `num_iter`. -/
structure CallCfg where
  cpu : Nat
  ncore : Option Nat
  nchunk : Option Nat
  limit : Option Nat
  iters : Nat

/-- A series of calls of `recon` on the same data, each with `init_recon` set to the result of the call before.
That result is a C-contiguous float32 array, so `np.require` returns the array itself
(`source/tomopy/recon/algorithm.py:350-366`): all calls work in the same array, which holds the result. -/
def ReconCalls {α : Type} (n : Nat) (kernel : Nat → Kernel α) :
    List CallCfg → (Cell → α) → (Cell → α) → Prop
  | [], m, m' => m' = m
  | c :: cs, m, m' => ∃ m1, DistRecon c.cpu n c.ncore c.nchunk c.limit (kernel c.iters) m m1 ∧
      ReconCalls n kernel cs m1 m'

/-! ## Proofs -/

/-- Two memories that satisfy the same specification are equal. -/
theorem slicewise_unique {α : Type} {n : Nat} {g : α → α → α → α} {m m1 m2 : Cell → α}
    (h1 : SlicewiseResult n g m m1) (h2 : SlicewiseResult n g m m2) : m1 = m2 := by
  obtain ⟨a1, a2, a3, a4⟩ := h1
  obtain ⟨b1, b2, b3, b4⟩ := h2
  funext ⟨b, i⟩
  by_cases ht : b = tomoB
  · subst ht; rw [a2, b2]
  by_cases hc : b = centerB
  · subst hc; rw [a3, b3]
  by_cases hr : b = reconB
  · subst hr
    by_cases hi : i < n
    · rw [a1 i hi, b1 i hi]
    · rw [a4 _ _ (Or.inr (not_lt.mp hi)), b4 _ _ (Or.inr (not_lt.mp hi))]
  · have : b ∉ [tomoB, centerB, reconB] := by simp [ht, hc, hr]
    rw [a4 _ _ (Or.inl this), b4 _ _ (Or.inl this)]

/-- A function that depends on the image of the slice only, for one slice. -/
def OneSlice (dt dx N : Nat) (geo : K → Nat → Nat → Segs K) (run : Run K) : Prop :=
  ∀ (c : K) (data r r' out : Mem K), (∀ j < N, r j = r' j) →
    run ⟨1, dt, dx, N⟩ (fun _ => geo c) data r = some out →
    ∃ out', run ⟨1, dt, dx, N⟩ (fun _ => geo c) data r' = some out' ∧ ∀ j < N, out j = out' j

theorem oneSlice_of_alone {dt dx N : Nat} {geo : K → Nat → Nat → Segs K}
    (hgeo : ∀ c, ∀ p < dt, ∀ d < dx, SegsOk N (geo c p d)) {run : Run K} (h : RunAlone dt dx N run) :
    OneSlice dt dx N geo run := by
  intro c data r r' out hr e
  obtain ⟨-, h2⟩ := h 1 (fun _ => geo c) (fun s _ p hp d hd => hgeo _ p hp d hd) data r (fun _ => data)
    (fun _ => r') (fun s hs j hj => by
      have hs0 : s = 0 := Nat.lt_one_iff.mp hs
      subst hs0
      simp) (fun s hs j hj => by
      have hs0 : s = 0 := Nat.lt_one_iff.mp hs
      subst hs0
      rw [Nat.zero_mul, Nat.add_zero]
      exact (hr j hj).symm)
  obtain ⟨o, ho, hs⟩ := h2 out e 0 one_pos
  refine ⟨o, ho, fun j hj => ?_⟩
  have := hs j hj
  rw [Nat.zero_mul, Nat.add_zero] at this
  exact this.symm

/-- One slice: `a` iterations, then `b` iterations from the result. -/
theorem own_continued {dt dx N a b : Nat} {geo : K → Nat → Nat → Segs K} {run : Nat → Run K}
    (hcont : ∀ g data, Continues fun k => run k ⟨1, dt, dx, N⟩ g data)
    (hone : OneSlice dt dx N geo (run b)) {t c x : Option (Mem K)}
    (hdef : ownRun (run (a + b)) dt dx N geo t c x ≠ none) :
    ownRun (run a) dt dx N geo t c x ≠ none ∧
    ownRun (run b) dt dx N geo t c (ownRun (run a) dt dx N geo t c x) =
      ownRun (run (a + b)) dt dx N geo t c x := by
  unfold ownRun at hdef ⊢
  have h0 : run (a + b) ⟨1, dt, dx, N⟩ (fun _ => geo (c.getD zeros 0)) (t.getD zeros) (x.getD zeros) =
      (run a ⟨1, dt, dx, N⟩ (fun _ => geo (c.getD zeros 0)) (t.getD zeros) (x.getD zeros)).bind
        (run b ⟨1, dt, dx, N⟩ (fun _ => geo (c.getD zeros 0)) (t.getD zeros)) := hcont _ _ a b _
  rw [h0] at hdef ⊢
  cases e : run a ⟨1, dt, dx, N⟩ (fun _ => geo (c.getD zeros 0)) (t.getD zeros) (x.getD zeros) with
  | none => rw [e] at hdef; exact absurd rfl hdef
  | some o =>
    rw [e] at hdef
    refine ⟨fun h => (by cases h), ?_⟩
    simp only [Option.bind_some, Option.map_some, Option.getD_some] at hdef ⊢
    cases e2 : run b ⟨1, dt, dx, N⟩ (fun _ => geo (c.getD zeros 0)) (t.getD zeros) o with
    | none => rw [e2] at hdef; exact absurd rfl hdef
    | some out =>
      obtain ⟨out', e3, hs⟩ := hone _ _ o (cut N o) out (fun j hj => (if_pos hj).symm) e2
      rw [e3]
      exact congrArg some (cut_congr fun j hj => (hs j hj).symm)

/-- The general form: `hown` says what one call does. -/
theorem calls_slicewise {n dt dx N : Nat} {geo : K → Nat → Nat → Segs K} {run : Nat → Run K}
    (hcont : ∀ g data, Continues fun k => run k ⟨1, dt, dx, N⟩ g data)
    (hone : ∀ k, OneSlice dt dx N geo (run k)) (ctr : Nat → Option (Mem K))
    (hown : ∀ (c : CallCfg) (m m' : Cell → Option (Mem K)), 1 ≤ c.cpu → (∀ i, m (centerB, i) = ctr i) →
      (∀ i < n, ownRun (run c.iters) dt dx N geo (m (tomoB, i)) (m (centerB, i)) (m (reconB, i)) ≠ none) →
      DistRecon c.cpu n c.ncore c.nchunk c.limit (cKernel (run c.iters) dt dx N geo) m m' →
      SlicewiseResult n (ownRun (run c.iters) dt dx N geo) m m')
    (cs : List CallCfg) : ∀ (m m' : Cell → Option (Mem K)), cs ≠ [] → (∀ c ∈ cs, 1 ≤ c.cpu) →
      (∀ i, m (centerB, i) = ctr i) →
      (∀ i < n, ownRun (run (cs.map CallCfg.iters).sum) dt dx N geo (m (tomoB, i)) (m (centerB, i))
        (m (reconB, i)) ≠ none) →
      ReconCalls n (fun k => cKernel (run k) dt dx N geo) cs m m' →
      SlicewiseResult n (ownRun (run (cs.map CallCfg.iters).sum) dt dx N geo) m m' := by
  induction cs with
  | nil => intro m m' h; exact absurd rfl h
  | cons c cs ih =>
    intro m m' _ hcpu hctr hdef h
    obtain ⟨m1, h1, h2⟩ := h
    rw [List.map_cons, List.sum_cons] at hdef ⊢
    cases cs with
    | nil =>
      have e : m' = m1 := h2
      subst e
      rw [List.map_nil, List.sum_nil, Nat.add_zero] at hdef ⊢
      exact hown c m m' (hcpu c List.mem_cons_self) hctr hdef h1
    | cons c2 cs =>
      have ha := fun i hi => own_continued hcont (hone _) (hdef i hi)
      obtain ⟨r1, t1, k1, f1⟩ := hown c m m1 (hcpu c List.mem_cons_self) hctr (fun i hi => (ha i hi).1) h1
      obtain ⟨r2, t2, k2, f2⟩ := ih m1 m' (by simp) (fun c' hc' => hcpu c' (List.mem_cons_of_mem _ hc'))
        (fun i => (k1 i).trans (hctr i)) (fun i hi => by
          rw [t1, k1, r1 i hi, (ha i hi).2]
          exact hdef i hi) h2
      refine ⟨fun i hi => ?_, fun i => (t2 i).trans (t1 i), fun i => (k2 i).trans (k1 i),
        fun b i hb => (f2 b i hb).trans (f1 b i hb)⟩
      rw [r2 i hi, t1, k1, r1 i hi]
      exact (ha i hi).2

/-- **C175** A series of calls and one call with as many iterations give the same memory, for every method that
treats slices on their own and continues. -/
theorem recon_continued {n dt dx N : Nat} {geo : K → Nat → Nat → Segs K}
    (hgeo : ∀ c, ∀ p < dt, ∀ d < dx, SegsOk N (geo c p d)) {run : Nat → Run K}
    (hrun : ∀ k, RunAlone dt dx N (run k)) (hcont : ∀ g data, Continues fun k => run k ⟨1, dt, dx, N⟩ g data)
    {cs : List CallCfg} {c : CallCfg} (hne : cs ≠ []) (hcs : ∀ c ∈ cs, 1 ≤ c.cpu) (hc : 1 ≤ c.cpu)
    (hsum : c.iters = (cs.map CallCfg.iters).sum) {m m1 m2 : Cell → Option (Mem K)}
    (hdef : ∀ i < n, ownRun (run c.iters) dt dx N geo (m (tomoB, i)) (m (centerB, i)) (m (reconB, i)) ≠ none)
    (h1 : ReconCalls n (fun k => cKernel (run k) dt dx N geo) cs m m1)
    (h2 : DistRecon c.cpu n c.ncore c.nchunk c.limit (cKernel (run c.iters) dt dx N geo) m m2) : m1 = m2 := by
  refine slicewise_unique (g := ownRun (run c.iters) dt dx N geo) ?_ (recon_own hc (hrun _) hgeo hdef h2)
  rw [hsum] at hdef ⊢
  exact calls_slicewise hcont (fun k => oneSlice_of_alone hgeo (hrun k)) (fun i => m (centerB, i))
    (fun c m m' hc _ hd h => recon_own hc (hrun _) hgeo hd h) cs m m1 hne hcs (fun _ => rfl) hdef h1

/-- There is always such a series. -/
theorem reconCalls_total {α : Type} {n : Nat} (hn : 1 ≤ n) (kernel : Nat → Kernel α) (cs : List CallCfg)
    (hcs : ∀ c ∈ cs, 1 ≤ c.cpu ∧ c.limit ≠ some 0) : ∀ m : Cell → α, ∃ m', ReconCalls n kernel cs m m' := by
  induction cs with
  | nil => exact fun m => ⟨m, rfl⟩
  | cons c cs ih =>
    intro m
    obtain ⟨h1, h2⟩ := hcs c List.mem_cons_self
    obtain ⟨m1, e⟩ := recon_total h1 hn c.ncore c.nchunk c.limit h2 (kernel c.iters) m
    obtain ⟨m', e'⟩ := ih (fun c hc => hcs c (List.mem_cons_of_mem _ hc)) m1
    exact ⟨m', m1, e, e'⟩

/-! ### The methods -/

/-- **C175** `bart`, and `sirt`, which is `bart` with one block: no assumption on the data. -/
theorem bart_continued {n dt dx N nb : Nat} {ind : List Nat} (hb : BlockArgs dt nb ind)
    {geo : K → Nat → Nat → Segs K} (hgeo : ∀ c, ∀ p < dt, ∀ d < dx, SegsOk N (geo c p d))
    {cs : List CallCfg} {c : CallCfg} (hne : cs ≠ []) (hcs : ∀ c ∈ cs, 1 ≤ c.cpu) (hc : 1 ≤ c.cpu)
    (hsum : c.iters = (cs.map CallCfg.iters).sum) {m m1 m2 : Cell → Option (Mem K)}
    (h1 : ReconCalls n (fun k => cKernel (fun D g data recon => bart D g data k nb ind recon) dt dx N geo) cs m m1)
    (h2 : DistRecon c.cpu n c.ncore c.nchunk c.limit
      (cKernel (fun D g data recon => bart D g data c.iters nb ind recon) dt dx N geo) m m2) : m1 = m2 := by
  refine recon_continued (run := fun k D g data recon => bart D g data k nb ind recon) hgeo
    (fun k => bart_runAlone dt dx N k hb) (fun g data => bart_continues _ g data nb ind) hne hcs hc hsum
    (fun i _ => ?_) h1 h2
  obtain ⟨r', e, -⟩ := bart_frame (D := ⟨1, dt, dx, N⟩) (g := fun _ => geo ((m (centerB, i)).getD zeros 0))
    (data := (m (tomoB, i)).getD zeros) (num_iter := c.iters) hb ((m (reconB, i)).getD zeros)
    (x := 1 * N) le_rfl
  intro hn
  exact absurd (hn.symm.trans (congrArg (Option.map (cut N)) e)) (fun h => (by cases h))

theorem osem_own_defined {n dt dx N num_iter nb : Nat} {ind : List Nat} (hb : BlockArgs dt nb ind)
    {geo : K → Nat → Nat → Segs K} (hgeo : ∀ c, ∀ p < dt, ∀ d < dx, SegsOk N (geo c p d))
    {m : Cell → Option (Mem K)} (hd : ∀ i < n, ∀ j < dt * dx, 0 < (m (tomoB, i)).getD zeros j)
    (hr : ∀ i < n, ∀ j < N, 0 < (m (reconB, i)).getD zeros j) : ∀ i < n,
    ownRun (fun D g data recon => osem D g data num_iter nb ind recon) dt dx N geo (m (tomoB, i)) (m (centerB, i))
      (m (reconB, i)) ≠ none := by
  intro i hi
  obtain ⟨r', e, -⟩ := osem_positive (D := ⟨1, dt, dx, N⟩)
    (g := fun _ => geo ((m (centerB, i)).getD zeros 0))
    (data := (m (tomoB, i)).getD zeros) (num_iter := num_iter) (recon := (m (reconB, i)).getD zeros)
    (fun s _ p hp d hd => hgeo _ p hp d hd) (by
      intro s hs p hp d hdd
      have hs0 : s = 0 := Nat.lt_one_iff.mp hs
      subst hs0
      refine hd i hi _ ?_
      show d + p * dx + 0 * dt * dx < dt * dx
      have h1 : (p + 1) * dx ≤ dt * dx := Nat.mul_le_mul_right _ hp
      have h2 : (p + 1) * dx = p * dx + dx := by ring
      have h3 : d < dx := hdd
      rw [Nat.zero_mul, Nat.zero_mul]
      omega) hb (by
      intro s hs j hj
      have hs0 : s = 0 := Nat.lt_one_iff.mp hs
      subst hs0
      rw [Nat.zero_mul]
      exact hr i hi j hj)
  intro hn
  exact absurd (hn.symm.trans (congrArg (Option.map (cut N)) e)) (fun h => (by cases h))

/-- **C175** `osem`, and `mlem`, which is `osem` with one block: positive data and a positive first image. -/
theorem osem_continued {n dt dx N nb : Nat} {ind : List Nat} (hb : BlockArgs dt nb ind)
    {geo : K → Nat → Nat → Segs K} (hgeo : ∀ c, ∀ p < dt, ∀ d < dx, SegsOk N (geo c p d))
    {cs : List CallCfg} {c : CallCfg} (hne : cs ≠ []) (hcs : ∀ c ∈ cs, 1 ≤ c.cpu) (hc : 1 ≤ c.cpu)
    (hsum : c.iters = (cs.map CallCfg.iters).sum) {m m1 m2 : Cell → Option (Mem K)}
    (hd : ∀ i < n, ∀ j < dt * dx, 0 < (m (tomoB, i)).getD zeros j)
    (hr : ∀ i < n, ∀ j < N, 0 < (m (reconB, i)).getD zeros j)
    (h1 : ReconCalls n (fun k => cKernel (fun D g data recon => osem D g data k nb ind recon) dt dx N geo) cs m m1)
    (h2 : DistRecon c.cpu n c.ncore c.nchunk c.limit
      (cKernel (fun D g data recon => osem D g data c.iters nb ind recon) dt dx N geo) m m2) : m1 = m2 :=
  recon_continued (run := fun k D g data recon => osem D g data k nb ind recon) hgeo
    (fun k => osem_runAlone dt dx N k hb) (fun g data => osem_continues _ g data nb ind) hne hcs hc hsum
    (osem_own_defined hb hgeo hd hr) h1 h2

/-- **C175** `ospml_quad`, `ospml_hybrid`, `pml_quad` and `pml_hybrid`: whenever the single call is defined. -/
theorem ospml_continued (gam : ℝ → Option ℝ) (beta : ℝ) {n dt dx ngx ngy nb : Nat} (hx : 2 ≤ ngx) (hy : 2 ≤ ngy)
    {ind : List Nat} (hb : BlockArgs dt nb ind) {geo : ℝ → Nat → Nat → Segs ℝ}
    (hgeo : ∀ c, ∀ p < dt, ∀ d < dx, SegsOk (ngx * ngy) (geo c p d))
    {cs : List CallCfg} {c : CallCfg} (hne : cs ≠ []) (hcs : ∀ c ∈ cs, 1 ≤ c.cpu) (hc : 1 ≤ c.cpu)
    (hsum : c.iters = (cs.map CallCfg.iters).sum) {m m1 m2 : Cell → Option (Mem ℝ)}
    (hdef : ∀ i < n, ownRun (fun D g data recon => ospml gam beta D ngx ngy g data c.iters nb ind recon) dt dx
      (ngx * ngy) geo (m (tomoB, i)) (m (centerB, i)) (m (reconB, i)) ≠ none)
    (h1 : ReconCalls n (fun k => cKernel (fun D g data recon => ospml gam beta D ngx ngy g data k nb ind recon) dt
      dx (ngx * ngy) geo) cs m m1)
    (h2 : DistRecon c.cpu n c.ncore c.nchunk c.limit (cKernel (fun D g data recon =>
      ospml gam beta D ngx ngy g data c.iters nb ind recon) dt dx (ngx * ngy) geo) m m2) : m1 = m2 :=
  recon_continued (run := fun k D g data recon => ospml gam beta D ngx ngy g data k nb ind recon) hgeo
    (fun k => ospml_runAlone gam beta dt dx hx hy k hb)
    (fun g data => ospml_continues gam beta _ ngx ngy g data nb ind) hne hcs hc hsum hdef h1 h2

theorem gradRun_fixed_defined (extra : Mem K → Mem K → Mem K) (D : Dims) (ngx ngy : Nat) (g : Geom K)
    (data : Mem K) (num_iter : Nat) (r : K) {reg0 : K} (h0 : 0 ≤ reg0) (recon : Mem K) :
    gradRun extra D ngx ngy g data num_iter r reg0 recon ≠ none := by
  have key : ∀ n i st, gradIters extra D ngx ngy g data r reg0 n i st ≠ none := by
    intro n
    induction n with
    | zero => intro i st h; cases h
    | succ n ih =>
      intro i st
      have hstep : ∀ i gr gr0 rc rc0 s, gradStep ngx ngy reg0 i gr gr0 rc rc0 s = some reg0 := by
        intros
        unfold gradStep
        rw [if_neg (not_lt.mpr h0)]
      simp only [gradIters, gradIter, hstep, Option.isSome_some, implies_true, if_true, Option.bind_some]
      exact ih _ _
  unfold gradRun
  split
  · exact fun h => (by cases h)
  · rw [ne_eq, Option.map_eq_none_iff]
    exact key _ _ _

/-- **C175 (partial)** `grad` with a step that is given (`reg_par[0] >= 0`): no assumption on the data. -/
theorem grad_continued_partial {n dt dx ngx ngy : Nat} {r reg0 : K} (hr : r ≠ 0) (h0 : 0 ≤ reg0)
    {geo : K → Nat → Nat → Segs K} (hgeo : ∀ c, ∀ p < dt, ∀ d < dx, SegsOk (ngx * ngy) (geo c p d))
    {cs : List CallCfg} {c : CallCfg} (hne : cs ≠ []) (hcs : ∀ c ∈ cs, 1 ≤ c.cpu) (hc : 1 ≤ c.cpu)
    (hsum : c.iters = (cs.map CallCfg.iters).sum) {m m1 m2 : Cell → Option (Mem K)}
    (h1 : ReconCalls n (fun k => cKernel (fun D g data recon => grad D ngx ngy g data k r reg0 recon) dt dx
      (ngx * ngy) geo) cs m m1)
    (h2 : DistRecon c.cpu n c.ncore c.nchunk c.limit (cKernel (fun D g data recon =>
      grad D ngx ngy g data c.iters r reg0 recon) dt dx (ngx * ngy) geo) m m2) : m1 = m2 := by
  refine recon_continued (run := fun k D g data recon => grad D ngx ngy g data k r reg0 recon) hgeo
    (fun k => grad_runAlone dt dx ngx ngy k r reg0)
    (fun g data => grad_continues_partial _ ngx ngy g data hr h0) hne hcs hc hsum (fun i _ hn => ?_) h1 h2
  unfold ownRun at hn
  rw [Option.map_eq_none_iff] at hn
  exact gradRun_fixed_defined _ _ ngx ngy _ _ c.iters r h0 _ hn

/-- **C175 (partial)** `tikh` with a step that is given and equal slices of `reg_data`. -/
theorem tikh_continued_partial {n dt dx ngx ngy : Nat} {r reg0 reg1 : K} (hr : r ≠ 0) (h0 : 0 ≤ reg0)
    {regData : Mem K} (hreg : ∀ s, ∀ n < ngx * ngy, regData (n + s * (ngx * ngy)) = regData n)
    {geo : K → Nat → Nat → Segs K} (hgeo : ∀ c, ∀ p < dt, ∀ d < dx, SegsOk (ngx * ngy) (geo c p d))
    {cs : List CallCfg} {c : CallCfg} (hne : cs ≠ []) (hcs : ∀ c ∈ cs, 1 ≤ c.cpu) (hc : 1 ≤ c.cpu)
    (hsum : c.iters = (cs.map CallCfg.iters).sum) {m m1 m2 : Cell → Option (Mem K)}
    (h1 : ReconCalls n (fun k => cKernel (tikhRun ngx ngy k r reg0 reg1 regData) dt dx (ngx * ngy) geo) cs m m1)
    (h2 : DistRecon c.cpu n c.ncore c.nchunk c.limit
      (cKernel (tikhRun ngx ngy c.iters r reg0 reg1 regData) dt dx (ngx * ngy) geo) m m2) : m1 = m2 := by
  refine recon_continued (run := fun k => tikhRun ngx ngy k r reg0 reg1 regData) hgeo
    (fun k => tikh_runAlone_partial dt dx ngx ngy k r reg0 reg1 hreg)
    (fun g data => tikh_continues_partial _ ngx ngy g data reg1 regData hr h0) hne hcs hc hsum
    (fun i _ hn => ?_) h1 h2
  unfold ownRun at hn
  rw [Option.map_eq_none_iff] at hn
  exact gradRun_fixed_defined _ _ ngx ngy _ _ c.iters r h0 _ hn

/-- **C175 (partial)** `art`, one centre for all slices: no assumption on the data. -/
theorem art_continued_partial {n dt dx N : Nat} {geo : K → Nat → Nat → Segs K}
    (hgeo : ∀ c, ∀ p < dt, ∀ d < dx, SegsOk N (geo c p d))
    {cs : List CallCfg} {c : CallCfg} (hne : cs ≠ []) (hcs : ∀ c ∈ cs, 1 ≤ c.cpu) (hc : 1 ≤ c.cpu)
    (hsum : c.iters = (cs.map CallCfg.iters).sum) {m m1 m2 : Cell → Option (Mem K)} (c0 : Option (Mem K))
    (hctr : ∀ i < n, m (centerB, i) = c0)
    (h1 : ReconCalls n (fun k => cKernel (fun D g data recon => some (art D g data k recon)) dt dx N geo) cs m m1)
    (h2 : DistRecon c.cpu n c.ncore c.nchunk c.limit
      (cKernel (fun D g data recon => some (art D g data c.iters recon)) dt dx N geo) m m2) : m1 = m2 := by
  have hone : ∀ k, OneSlice dt dx N geo fun D g data recon => some (art D g data k recon) := by
    intro k c data r r' out hr e
    cases e
    refine ⟨_, rfl, fun j hj => ?_⟩
    have := art_alone (D := ⟨1, dt, dx, N⟩) (g := fun _ => geo c) (data := data) (data1 := data) (recon := r)
      (recon1 := r') (fun p hp d hd e he => (hgeo _ p hp d hd e he).1) (s := 0) one_pos
      (fun j hj => by simp) k (fun j hj => by
        rw [Nat.zero_mul, Nat.add_zero]
        exact (hr j hj).symm) j hj
    rw [Nat.zero_mul, Nat.add_zero] at this
    exact this.symm
  refine slicewise_unique (g := ownRun (fun D g data recon => some (art D g data c.iters recon)) dt dx N geo) ?_
    (recon_art_own_partial hc hgeo c0 hctr h2)
  rw [hsum]
  exact calls_slicewise (run := fun k D g data recon => some (art D g data k recon))
    (fun g data => art_continues _ g data) hone (fun i => m (centerB, i))
    (fun c m' m'' hc hk _ h => recon_art_own_partial hc hgeo c0 (fun i hi => (hk i).trans (hctr i hi)) h) cs m m1
    hne hcs (fun _ => rfl) (fun _ _ h => (by cases h)) h1

/-! ### Where it fails -/

theorem onePixel_ok (c : K) : ∀ p < 1, ∀ d < 2, SegsOk (1 * 1) ((fun _ : K => onePixel (K := K) 0) c p d) := by
  intro p _ d _ e he
  simp only [onePixel] at he
  split at he
  · simp at he
    subst he
    exact ⟨Nat.one_pos, zero_le_one⟩
  · simp at he

/-- Two single iterations and one call with two, for a method known on one slice. -/
theorem two_calls_value {run : Nat → Run K} (hrun : ∀ k, RunAlone 1 2 (1 * 1) (run k)) {c1 c2 c : CallCfg}
    (h1 : 1 ≤ c1.cpu) (h2 : 1 ≤ c2.cpu) (h3 : 1 ≤ c.cpu) (i1 : c1.iters = 1) (i2 : c2.iters = 1)
    (i3 : c.iters = 2) {data x o o1 o2 : Mem K} {m m1 m2 : Cell → Option (Mem K)}
    (hm : m (tomoB, 0) = some data) (hx : m (reconB, 0) = some x)
    (e : run 2 ⟨1, 1, 2, 1⟩ onePixel data x = some o) (e1 : run 1 ⟨1, 1, 2, 1⟩ onePixel data x = some o1)
    (e2 : run 1 ⟨1, 1, 2, 1⟩ onePixel data o1 = some o2)
    (hs : ReconCalls 1 (fun k => cKernel (run k) 1 2 (1 * 1) fun _ => onePixel 0) [c1, c2] m m1)
    (hc : DistRecon c.cpu 1 c.ncore c.nchunk c.limit (cKernel (run c.iters) 1 2 (1 * 1) fun _ => onePixel 0) m m2) :
    (m1 (reconB, 0)).map (· 0) = some (o2 0) ∧ (m2 (reconB, 0)).map (· 0) = some (o 0) := by
  obtain ⟨m3, a1, m4, a2, rfl⟩ := hs
  rw [i1] at a1
  rw [i2] at a2
  rw [i3] at hc
  have own : ∀ k t x y z, t = some data → x = some y → run k ⟨1, 1, 2, 1⟩ onePixel data y = some z →
      ∀ ctr, ownRun (run k) 1 2 (1 * 1) (fun _ => onePixel 0) t ctr x = some (cut 1 z) := by
    rintro k t x y z rfl rfl h ctr
    exact congrArg (Option.map (cut 1)) h
  have hne : ∀ {a : Option (Mem K)} {b : Mem K}, a = some b → a ≠ none := fun h h' => by
    rw [h] at h'; cases h'
  obtain ⟨r1, t1, -, -⟩ := recon_own h1 (hrun 1) onePixel_ok (fun i hi => by
    have : i = 0 := Nat.lt_one_iff.mp hi
    subst this
    exact hne (own 1 _ _ _ _ hm hx e1 _)) a1
  obtain ⟨r2, -, -, -⟩ := recon_own h3 (hrun 2) onePixel_ok (fun i hi => by
    have : i = 0 := Nat.lt_one_iff.mp hi
    subst this
    exact hne (own 2 _ _ _ _ hm hx e _)) hc
  have v1 := (r1 0 one_pos).trans (own 1 _ _ _ _ hm hx e1 _)
  obtain ⟨out, e3, hs3⟩ := oneSlice_of_alone (dt := 1) (dx := 2) (N := 1 * 1) onePixel_ok (hrun 1) 0 data o1
    (cut 1 o1) o2 (fun j hj => (if_pos hj).symm) e2
  obtain ⟨r3, -, -, -⟩ := recon_own h2 (hrun 1) onePixel_ok (fun i hi => by
    have : i = 0 := Nat.lt_one_iff.mp hi
    subst this
    exact hne (own 1 _ _ _ _ ((t1 0).trans hm) v1 e3 _)) a2
  rw [r3 0 one_pos, own 1 _ _ _ _ ((t1 0).trans hm) v1 e3, r2 0 one_pos, own 2 _ _ _ _ hm hx e]
  exact ⟨congrArg some (hs3 0 one_pos).symm, rfl⟩

/-- **C175 (refutation)** `grad` with the automatic step, for every number of cores: two calls with one iteration
differ from one call with two iterations whenever the first image is not the solution already. -/
theorem grad_auto_not_continued {x y reg0 : K} (h0 : reg0 < 0) (hx : x ≠ y) {c1 c2 c : CallCfg}
    (h1 : 1 ≤ c1.cpu) (h2 : 1 ≤ c2.cpu) (h3 : 1 ≤ c.cpu) (i1 : c1.iters = 1) (i2 : c2.iters = 1)
    (i3 : c.iters = 2) {m m1 m2 : Cell → Option (Mem K)} (hm : m (tomoB, 0) = some fun _ => y)
    (hr : m (reconB, 0) = some fun _ => x)
    (hs : ReconCalls 1 (fun k => cKernel (fun D g data recon => grad D 1 1 g data k 1 reg0 recon) 1 2 (1 * 1)
      fun _ => onePixel 0) [c1, c2] m m1)
    (hc : DistRecon c.cpu 1 c.ncore c.nchunk c.limit (cKernel (fun D g data recon =>
      grad D 1 1 g data c.iters 1 reg0 recon) 1 2 (1 * 1) fun _ => onePixel 0) m m2) :
    (m1 (reconB, 0)).map (· 0) ≠ (m2 (reconB, 0)).map (· 0) := by
  obtain ⟨⟨o, e, v⟩, o1, o2, e1, e2, v2⟩ := grad_auto_restarts h0 hx
  obtain ⟨a, b⟩ := two_calls_value (run := fun k D g data recon => grad D 1 1 g data k 1 reg0 recon)
    (fun k => grad_runAlone 1 2 1 1 k 1 reg0) h1 h2 h3 i1 i2 i3 hm hr e e1 e2 hs hc
  rw [a, b]
  intro h
  have h' : o2 0 = o 0 := Option.some.inj h
  rw [h', v, sub_self] at v2
  have := mul_eq_zero.mp v2.symm
  rcases this with h | h
  · norm_num at h
  · exact hx (sub_eq_zero.mp h)

/-- **C175 (refutation)** `tv`, for every number of cores and weight: two calls with one iteration, from zero,
differ from one call with two iterations. -/
theorem tv_not_continued {lam y : ℝ} (hl : 0 < lam) (hy : y ≠ 0) {c1 c2 c : CallCfg}
    (h1 : 1 ≤ c1.cpu) (h2 : 1 ≤ c2.cpu) (h3 : 1 ≤ c.cpu) (i1 : c1.iters = 1) (i2 : c2.iters = 1)
    (i3 : c.iters = 2) {m m1 m2 : Cell → Option (Mem ℝ)} (hm : m (tomoB, 0) = some fun _ => y)
    (hr : m (reconB, 0) = some fun _ => 0)
    (hs : ReconCalls 1 (fun k => cKernel (fun D g data recon => tv lam D 1 1 g data k recon) 1 2 (1 * 1)
      fun _ => onePixel 0) [c1, c2] m m1)
    (hc : DistRecon c.cpu 1 c.ncore c.nchunk c.limit (cKernel (fun D g data recon =>
      tv lam D 1 1 g data c.iters recon) 1 2 (1 * 1) fun _ => onePixel 0) m m2) :
    (m1 (reconB, 0)).map (· 0) ≠ (m2 (reconB, 0)).map (· 0) := by
  obtain ⟨o, o1, o2, e, e1, e2, v⟩ := tv_restarts (lam := lam) hy
  obtain ⟨a, b⟩ := two_calls_value (run := fun k D g data recon => tv lam D 1 1 g data k recon)
    (fun k => tv_runAlone hl 1 2 1 1 k) h1 h2 h3 i1 i2 i3 hm hr e e1 e2 hs hc
  rw [a, b]
  exact fun h => v (Option.some.inj h).symm

/-! ### Cases -/

/-- `sirt`: three iterations on one core are one iteration on two cores and two iterations on four. -/
example (m' m'' : Cell → Option (Mem ℚ))
    (h : ReconCalls 2 (fun k => cKernel (fun D g data recon => bart D g data k 1 [0] recon) 1 2 1 demoGeo)
      [⟨4, some 2, none, none, 1⟩, ⟨4, some 4, some 1, none, 2⟩] demoMem m')
    (h' : DistRecon 4 2 (some 1) none none
      (cKernel (fun D g data recon => bart D g data 3 1 [0] recon) 1 2 1 demoGeo) demoMem m'') : m' = m'' :=
  bart_continued (c := ⟨4, some 1, none, none, 3⟩) (Or.inl rfl) demoGeo_ok (by simp) (by decide) (by decide) rfl h h'

/-- There are such series of calls. -/
example : ∃ m', ReconCalls 2 (fun k => cKernel (fun D g data recon => bart D g data k 1 [0] recon) 1 2 1 demoGeo)
    [⟨4, some 2, none, none, 1⟩, ⟨4, some 4, some 1, none, 2⟩] demoMem m' :=
  reconCalls_total (by decide) _ _ (by decide) _

/-- `mlem` and `osem`: positive data and images. -/
example (m' m'' : Cell → Option (Mem ℚ))
    (h : ReconCalls 2 (fun k => cKernel (fun D g data recon => osem D g data k 1 [0] recon) 1 2 1 demoGeo)
      [⟨4, none, none, none, 3⟩, ⟨4, none, none, none, 4⟩] (fun c => some fun _ => c.2 + 1) m')
    (h' : DistRecon 4 2 none none none
      (cKernel (fun D g data recon => osem D g data 7 1 [0] recon) 1 2 1 demoGeo) (fun c => some fun _ => c.2 + 1)
        m'') : m' = m'' :=
  osem_continued (c := ⟨4, none, none, none, 7⟩) (Or.inl rfl) demoGeo_ok (by simp) (by decide) (by decide) rfl
    (fun i _ j _ => by show (0 : ℚ) < (i : ℚ) + 1; positivity)
    (fun i _ j _ => by show (0 : ℚ) < (i : ℚ) + 1; positivity) h h'

/-- `grad` with the step 1/10. -/
example (m' m'' : Cell → Option (Mem ℚ))
    (h : ReconCalls 2 (fun k => cKernel (fun D g data recon => grad D 1 1 g data k 1 (1 / 10) recon) 1 2 (1 * 1)
      demoGeo) [⟨4, none, none, none, 1⟩, ⟨4, none, none, none, 1⟩] demoMem m')
    (h' : DistRecon 4 2 none none none
      (cKernel (fun D g data recon => grad D 1 1 g data 2 1 (1 / 10) recon) 1 2 (1 * 1) demoGeo) demoMem m'') :
    m' = m'' :=
  grad_continued_partial (c := ⟨4, none, none, none, 2⟩) one_ne_zero (by norm_num) demoGeo_ok (by simp) (by decide)
    (by decide) rfl h h'

/-- The refutations: there are such calls. -/
example : ∃ m1 m2 : Cell → Option (Mem ℝ),
    ReconCalls 1 (fun k => cKernel (fun D g data recon => tv 1 D 1 1 g data k recon) 1 2 (1 * 1)
      fun _ => onePixel 0) [⟨4, none, none, none, 1⟩, ⟨4, none, none, none, 1⟩]
      (fun c => some fun _ => if c.1 = tomoB then 1 else 0) m1 ∧
    DistRecon 4 1 none none none (cKernel (fun D g data recon => tv 1 D 1 1 g data 2 recon) 1 2 (1 * 1)
      fun _ => onePixel 0) (fun c => some fun _ => if c.1 = tomoB then 1 else 0) m2 ∧
    (m1 (reconB, 0)).map (· 0) ≠ (m2 (reconB, 0)).map (· 0) := by
  obtain ⟨m1, h1⟩ := reconCalls_total (n := 1) (by decide)
    (fun k => cKernel (fun D g data recon => tv 1 D 1 1 g data k recon) 1 2 (1 * 1) fun _ => onePixel 0)
    [⟨4, none, none, none, 1⟩, ⟨4, none, none, none, 1⟩] (by decide)
    (fun c => some fun _ => if c.1 = tomoB then 1 else 0)
  obtain ⟨m2, h2⟩ := recon_total (cpu := 4) (n := 1) (by decide) (by decide) none none none (by decide)
    (cKernel (fun D g data recon => tv 1 D 1 1 g data 2 recon) 1 2 (1 * 1) fun _ => onePixel 0)
    (fun c => some fun _ => if c.1 = tomoB then 1 else 0)
  exact ⟨m1, m2, h1, h2, tv_not_continued (c := ⟨4, none, none, none, 2⟩) one_pos one_ne_zero (by decide)
    (by decide) (by decide) rfl rfl rfl rfl rfl h1 h2⟩

/-- `grad` with `reg_par[0] = -1`, image 0 and data 1. -/
example (m1 m2 : Cell → Option (Mem ℚ))
    (h1 : ReconCalls 1 (fun k => cKernel (fun D g data recon => grad D 1 1 g data k 1 (-1) recon) 1 2 (1 * 1)
      fun _ => onePixel 0) [⟨4, none, none, none, 1⟩, ⟨4, none, none, none, 1⟩]
      (fun c => some fun _ => if c.1 = tomoB then 1 else 0) m1)
    (h2 : DistRecon 4 1 none none none (cKernel (fun D g data recon => grad D 1 1 g data 2 1 (-1) recon) 1 2 (1 * 1)
      fun _ => onePixel 0) (fun c => some fun _ => if c.1 = tomoB then 1 else 0) m2) :
    (m1 (reconB, 0)).map (· 0) ≠ (m2 (reconB, 0)).map (· 0) :=
  grad_auto_not_continued (c := ⟨4, none, none, none, 2⟩) (x := 0) (y := 1) (by norm_num) (by norm_num) (by decide)
    (by decide) (by decide) rfl rfl rfl rfl rfl h1 h2

end Tomopy.Recon
