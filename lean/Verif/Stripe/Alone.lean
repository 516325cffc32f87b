import Verif.Stripe.AloneModel
import Verif.Stripe.Sf
import Verif.Stripe.Db2
import Verif.Stripe.Sort
import Verif.Mproc.Props

/-! C172: what the stripe removal functions do with a sinogram does not depend on the other sinograms of
the array, except for `remove_stripe_fw` with the default number of levels. -/
set_option linter.unusedSectionVars false
namespace Tomopy.Stripe
open Mproc

noncomputable section

section
variable {α β : Type}

theorem mapM_ok {γ : Type} (g : γ → Except PyErr β) : ∀ {l : List γ} {ys : List β},
    l.mapM g = .ok ys → ∀ x ∈ l, ∃ y, g x = .ok y := by
  intro l
  induction l with
  | nil => intro _ _ x hx; exact absurd hx List.not_mem_nil
  | cons a l ih =>
    intro ys h x hx
    rw [List.mapM_cons] at h
    rcases ha : g a with e | y
    · rw [ha] at h; cases h
    · rcases hl : l.mapM g with e | zs
      · rw [ha, hl] at h; cases h
      · rcases List.mem_cons.1 hx with rfl | hx
        · exact ⟨y, ha⟩
        · exact ih hl x hx

theorem mapM_error {γ : Type} (g : γ → Except PyErr β) : ∀ {l : List γ} {e : PyErr},
    l.mapM g = .error e → ∃ x ∈ l, g x = .error e := by
  intro l
  induction l with
  | nil => intro e h; cases h
  | cons a l ih =>
    intro e h
    rw [List.mapM_cons] at h
    rcases ha : g a with e' | y
    · rw [ha] at h
      cases h
      exact ⟨a, List.mem_cons_self, ha⟩
    · rcases hl : l.mapM g with e' | zs
      · rw [ha, hl] at h
        cases h
        obtain ⟨x, hx, hg⟩ := ih hl
        exact ⟨x, List.mem_cons_of_mem _ hx, hg⟩
      · rw [ha, hl] at h; cases h

theorem mem_chunks {n nk i : Nat} :
    i < n ↔ ∃ ch ∈ (jobSlices n nk).map (Slc.indices n), i ∈ ch := by
  have h := jobSlices_cover n nk
  rw [← List.mem_range, ← h, List.mem_flatMap]
  simp

theorem ncn_none_eq (cpu n : Nat) (ncore : Option Nat) : getNcoreNchunk cpu n ncore none =
    (fun k : Nat => if k = 0 then .error .zeroDivision else .ok (k, ceilDiv n k))
      (if limitCores cpu ncore > ceilDiv n 1 then ceilDiv n 1 else limitCores cpu ncore) := rfl

theorem ncn_none {cpu n nc nk : Nat} {ncore : Option Nat} (h : getNcoreNchunk cpu n ncore none = .ok (nc, nk)) :
    nc ≠ 0 ∧ nk = ceilDiv n nc := by
  rw [ncn_none_eq] at h
  generalize (if limitCores cpu ncore > ceilDiv n 1 then ceilDiv n 1 else limitCores cpu ncore) = k at h
  dsimp only at h
  by_cases hk : k = 0
  · rw [if_pos hk] at h; cases h
  · rw [if_neg hk] at h; cases h; exact ⟨hk, rfl⟩

theorem ncn_none_error {cpu n : Nat} {ncore : Option Nat} {e : PyErr} (h : getNcoreNchunk cpu n ncore none = .error e) :
    (n = 0 ∨ cpu = 0 ∨ ncore = some 0) ∧ e = .zeroDivision := by
  rw [ncn_none_eq] at h
  generalize hk : (if limitCores cpu ncore > ceilDiv n 1 then ceilDiv n 1 else limitCores cpu ncore) = k at h
  dsimp only at h
  by_cases h0 : k = 0
  · rw [if_pos h0] at h
    cases h
    refine ⟨?_, rfl⟩
    subst h0
    by_contra hne
    push Not at hne
    obtain ⟨h1, h2, h3⟩ := hne
    have hl : limitCores cpu ncore ≠ 0 := by
      cases ncore with
      | none => exact h2
      | some k =>
        have : k ≠ 0 := fun h => h3 (by rw [h])
        unfold limitCores
        dsimp only
        split_ifs <;> omega
    unfold ceilDiv at hk
    rw [Nat.div_one] at hk
    split_ifs at hk with h4
    · omega
    · exact hl hk
  · rw [if_neg h0] at h; cases h

theorem ncn_some_ok (cpu n : Nat) (ncore : Option Nat) (c : Nat) :
    ∃ nc, getNcoreNchunk cpu n ncore (some c) = .ok (nc, if c ≠ 0 ∧ c > n then n else c) := by
  unfold getNcoreNchunk
  have : limitChunk n (some c) = some (if c ≠ 0 ∧ c > n then n else c) := by
    simp only [limitChunk]; split_ifs <;> rfl
  rw [this]
  exact ⟨_, rfl⟩

theorem ncn_some {cpu n nc nk c : Nat} {ncore : Option Nat} (h : getNcoreNchunk cpu n ncore (some c) = .ok (nc, nk)) :
    (if c ≠ 0 ∧ c > n then n else c) = nk := by
  obtain ⟨nc', h'⟩ := ncn_some_ok cpu n ncore c
  rw [h'] at h
  cases h
  rfl

/-- **C172** What a call that returns gives: every sinogram has been filtered, and by itself, for every
number of cores, chunk size and schedule. -/
theorem sliceFilter_ok {cpu : Nat} {debug : Bool} {n : Nat} {ncore nchunk : Option Nat} {noAxis : PyErr}
    {f : α → Except PyErr β} {tomo : Nat → α} {Y : Nat → β}
    (h : SliceFilter cpu debug n ncore nchunk noAxis f tomo (.ok Y)) :
    ∀ i < n, f (tomo i) = .ok (Y i) := by
  intro i hi
  unfold SliceFilter at h
  split at h
  · cases h
  · rename_i nc nk hg
    rcases h with ⟨⟨ys, hys⟩, m, m', res, Y', hm, hd, hY, hr⟩ | ⟨-, _, _, _, _, h⟩ | ⟨-, _, _, h⟩
    · cases hr
      obtain ⟨ch, hch, hich⟩ := (mem_chunks (nk := nk)).1 hi
      obtain ⟨zs, hzs⟩ := mapM_ok _ hys ch hch
      unfold chunkResult at hzs
      split at hzs
      · cases hzs
      · obtain ⟨y, hy⟩ := mapM_ok _ hzs i hich
        have hf : InPlaceSlicewise (filterBlock f) (fun row => row.map (filterCell f)) :=
          ⟨fun _ => rfl, fun _ => rfl, fun _ => List.length_map ..⟩
        have key := inplace_result_partial hf (by simp) (by simp) rfl hd i hi
        simp only [List.map_cons, List.map_nil, List.getLast?_singleton, Option.some.injEq, hm i hi, hY i hi,
          filterCell, hy] at key
        rw [hy, Sum.inr.inj key]
    · cases h
    · cases h

/-- **C172** What a call that raises gives: the exception of one of the sinograms, unless there are no
cores or sinograms to divide, or `nchunk = 0` takes the axis of the sinograms away. -/
theorem sliceFilter_error {cpu : Nat} {debug : Bool} {n : Nat} {ncore nchunk : Option Nat} {noAxis e : PyErr}
    {f : α → Except PyErr β} {tomo : Nat → α}
    (h : SliceFilter cpu debug n ncore nchunk noAxis f tomo (.error e)) :
    (∃ i < n, f (tomo i) = .error e) ∨ (nchunk = some 0 ∧ 0 < n ∧ e = noAxis) ∨
      (nchunk = none ∧ (n = 0 ∨ cpu = 0 ∨ ncore = some 0) ∧ e = .zeroDivision) := by
  have chunk : ∀ {nc nk : Nat}, getNcoreNchunk cpu n ncore nchunk = .ok (nc, nk) →
      (∃ ch ∈ (jobSlices n nk).map (Slc.indices n), chunkResult noAxis f tomo nk ch = .error e) →
      (∃ i < n, f (tomo i) = .error e) ∨ (nchunk = some 0 ∧ 0 < n ∧ e = noAxis) := by
    rintro nc nk hg ⟨ch, hch, he⟩
    unfold chunkResult at he
    split at he
    · rename_i h0
      subst h0
      cases he
      have hn : 0 < n := by
        rcases Nat.eq_zero_or_pos n with rfl | hn
        · simp [jobSlices, pyRange] at hch
        · exact hn
      refine Or.inr ⟨?_, hn, rfl⟩
      cases nchunk with
      | none =>
        obtain ⟨h1, h2⟩ := ncn_none hg
        unfold ceilDiv at h2
        rcases Nat.div_eq_zero_iff.1 h2.symm with h3 | h3 <;> omega
      | some c =>
        have h1 := ncn_some hg
        split at h1
        · omega
        · rw [← h1]
    · obtain ⟨i, hi, hf⟩ := mapM_error _ he
      exact Or.inl ⟨i, (mem_chunks (nk := nk)).2 ⟨ch, hch, hi⟩, hf⟩
  unfold SliceFilter at h
  split at h
  · rename_i e' hg
    cases h
    refine Or.inr (Or.inr ?_)
    cases nchunk with
    | some c => obtain ⟨nc, h⟩ := ncn_some_ok cpu n ncore c; rw [h] at hg; cases hg
    | none =>
      obtain ⟨h1, h2⟩ := ncn_none_error hg
      exact ⟨rfl, h1, h2⟩
  · rename_i nc nk hg
    rcases h with ⟨-, _, _, _, _, _, _, _, h⟩ | ⟨-, ch, hch, e', he, h⟩ | ⟨-, e', he, h⟩
    · cases h
    · cases h
      rcases chunk hg ⟨ch, hch, he⟩ with h | h
      · exact Or.inl h
      · exact Or.inr (Or.inl h)
    · cases h
      rcases chunk hg (mapM_error _ he) with h | h
      · exact Or.inl h
      · exact Or.inr (Or.inl h)

theorem mapM_total {γ : Type} (g : γ → Except PyErr β) (l : List γ) :
    (∃ ys, l.mapM g = .ok ys) ∨ ∃ e, l.mapM g = .error e := by
  rcases l.mapM g with e | ys
  · exact Or.inr ⟨e, rfl⟩
  · exact Or.inl ⟨ys, rfl⟩

/-- **C172** Every call ends. -/
theorem sliceFilter_total [Nonempty β] (cpu : Nat) (debug : Bool) (n : Nat) (ncore nchunk : Option Nat) (noAxis : PyErr)
    (f : α → Except PyErr β) (tomo : Nat → α) : ∃ r, SliceFilter cpu debug n ncore nchunk noAxis f tomo r := by
  unfold SliceFilter
  rcases hg : getNcoreNchunk cpu n ncore nchunk with e | ⟨nc, nk⟩
  · exact ⟨_, rfl⟩
  · dsimp only
    rcases mapM_total (chunkResult noAxis f tomo nk) ((jobSlices n nk).map (Slc.indices n)) with ⟨ys, hys⟩ | ⟨e, he⟩
    · obtain ⟨m', res, hd⟩ := distribute_jobs_total cpu debug
        ⟨n, [0], none, fun _ => false, filterBlock f, ncore, nchunk, fun _ => false⟩ (fun _ => false)
        (fun c : Mproc.Cell => (.inl (tomo c.2) : α ⊕ β)) nc nk hg
      have hy : ∀ i, ∃ z : β, i < n → m' (res, i) = .inr z := by
        intro i
        by_cases hi : i < n
        · obtain ⟨ch, hch, hich⟩ := (mem_chunks (nk := nk)).1 hi
          obtain ⟨zs, hzs⟩ := mapM_ok _ hys ch hch
          unfold chunkResult at hzs
          split at hzs
          · cases hzs
          · obtain ⟨y, hy⟩ := mapM_ok _ hzs i hich
            have hf : InPlaceSlicewise (filterBlock f) (fun row => row.map (filterCell f)) :=
              ⟨fun _ => rfl, fun _ => rfl, fun _ => List.length_map ..⟩
            have key := inplace_result_partial hf (by simp) (by simp) rfl hd i hi
            simp only [List.map_cons, List.map_nil, List.getLast?_singleton, Option.some.injEq,
              filterCell, hy] at key
            exact ⟨y, fun _ => key⟩
        · exact ⟨Classical.arbitrary β, fun h => absurd h hi⟩
      choose Y hY using hy
      exact ⟨.ok Y, Or.inl ⟨⟨ys, hys⟩, _, m', res, Y, fun _ _ => rfl, hd, hY, rfl⟩⟩
    · by_cases hc : nc > 1 ∧ debug = false
      · obtain ⟨ch, hch, h⟩ := mapM_error _ he
        exact ⟨.error e, Or.inr (Or.inl ⟨hc, ch, hch, e, h, rfl⟩)⟩
      · exact ⟨.error e, Or.inr (Or.inr ⟨hc, e, he, rfl⟩)⟩

/-- **C172** The result of a sinogram is that of the array that has only this sinogram, whatever the
numbers of cores, chunk sizes and schedules of the two calls. -/
theorem sliceFilter_alone {cpu cpu' : Nat} {debug debug' : Bool} {n : Nat} {ncore nchunk ncore' nchunk' : Option Nat}
    {noAxis : PyErr} {f : α → Except PyErr β} {tomo : Nat → α} {Y : Nat → β} {r : Except PyErr (Nat → β)}
    (h : SliceFilter cpu debug n ncore nchunk noAxis f tomo (.ok Y)) {s : Nat} (hs : s < n)
    (h1 : SliceFilter cpu' debug' 1 ncore' nchunk' noAxis f (fun _ => tomo s) r)
    (hc : cpu' ≠ 0) (hk : ncore' ≠ some 0) (hk' : nchunk' ≠ some 0) :
    ∃ Y1, r = .ok Y1 ∧ Y s = Y1 0 := by
  have hY := sliceFilter_ok h s hs
  rcases r with e | Y1
  · exfalso
    rcases sliceFilter_error h1 with ⟨i, _, hi⟩ | ⟨h, _⟩ | ⟨_, h | h | h, _⟩
    · rw [hY] at hi; cases hi
    · exact hk' h
    · exact absurd h one_ne_zero
    · exact hc h
    · exact hk h
  · have := sliceFilter_ok h1 0 one_pos
    rw [hY] at this
    exact ⟨Y1, rfl, Except.ok.inj this⟩

/-- **C172** An array whose sinograms can all be filtered alone can be filtered. -/
theorem sliceFilter_all {cpu : Nat} {debug : Bool} {n : Nat} {ncore nchunk : Option Nat}
    {noAxis : PyErr} {f : α → Except PyErr β} {tomo : Nat → α} {r : Except PyErr (Nat → β)}
    (h : SliceFilter cpu debug n ncore nchunk noAxis f tomo r) (hn : 0 < n) (hc : cpu ≠ 0) (hk : ncore ≠ some 0)
    (hk' : nchunk ≠ some 0) (hf : ∀ s < n, ∃ y, f (tomo s) = .ok y) : ∃ Y, r = .ok Y := by
  rcases r with e | Y
  · exfalso
    rcases sliceFilter_error h with ⟨i, hi, he⟩ | ⟨h, _⟩ | ⟨_, h | h | h, _⟩
    · obtain ⟨y, hy⟩ := hf i hi; rw [hy] at he; cases he
    · exact hk' h
    · exact absurd h hn.ne'
    · exact hc h
    · exact hk h
  · exact ⟨Y, rfl⟩

end

/-! ### The functions -/

/-- The number of levels is left to `remove_stripe_fw`. -/
def DefaultLevel : StripeArgs → Prop
  | .fw _ none _ _ => True
  | _ => False

/-- Calls with a positive number of cores and a chunk size other than 0. -/
def Sane (cpu : Nat) (ncore nchunk : Option Nat) : Prop := cpu ≠ 0 ∧ ncore ≠ some 0 ∧ nchunk ≠ some 0

theorem level_small {n dx dz : Nat} (h : n ≤ 2 ^ Nat.clog 2 (max dx dz)) (hd : 0 < dx) :
    fwLevel (dx, n, dz) none = fwLevel (dx, 1, dz) none := by
  unfold fwLevel
  dsimp only
  have e1 : max dx (max 1 dz) = max dx dz := by omega
  rw [e1]
  apply le_antisymm
  · apply Nat.clog_le_of_le_pow
    have := Nat.le_pow_clog (b := 2) (by norm_num) (max dx dz)
    refine max_le (le_trans (le_max_left _ _) this) (max_le h (le_trans (le_max_right _ _) this))
  · exact Nat.clog_mono_right _ (by omega)

theorem stripeSlice_alone {a : StripeArgs} {n dx dz : Nat} (hd : 0 < dx)
    (h : DefaultLevel a → n ≤ 2 ^ Nat.clog 2 (max dx dz)) : stripeSlice n dx dz a = stripeSlice 1 dx dz a := by
  cases a with
  | fw B level sigma pad =>
    cases level with
    | none =>
      funext X
      simp only [stripeSlice]
      rw [level_small (h trivial) hd]
    | some l => rfl
  | _ => rfl

/-- **C172** The sinograms of a stack are filtered as if each were alone: all stripe removal functions
with a Python loop, all numbers of cores, chunk sizes and schedules of both calls.  For
`remove_stripe_fw` with the default number of levels only up to as many sinograms as the power of two
that is next to the numbers of angles and columns.  (The full statement has no such condition; it is
refuted by `fw_default_wrong`.) -/
theorem removeStripe_alone_partial {cpu cpu' : Nat} {debug debug' : Bool} {n dx dz : Nat} {a : StripeArgs}
    {ncore nchunk ncore' nchunk' : Option Nat} {tomo : Nat → Nat → Nat → ℝ}
    {Y : Nat → Nat → Nat → Option ℝ} {r : Except PyErr (Nat → Nat → Nat → Option ℝ)} (hd : 0 < dx)
    (ha : DefaultLevel a → n ≤ 2 ^ Nat.clog 2 (max dx dz))
    (h : RemoveStripe cpu debug n dx dz a ncore nchunk tomo (.ok Y)) {s : Nat} (hs : s < n)
    (h1 : RemoveStripe cpu' debug' 1 dx dz a ncore' nchunk' (fun _ => tomo s) r) (hk : Sane cpu' ncore' nchunk') :
    ∃ Y1, r = .ok Y1 ∧ Y s = Y1 0 := by
  unfold RemoveStripe at h h1
  rw [stripeSlice_alone hd ha] at h
  exact sliceFilter_alone h hs h1 hk.1 hk.2.1 hk.2.2

/-- **C172** A stack can be filtered when each of its sinograms can. -/
theorem removeStripe_all_partial {cpu : Nat} {debug : Bool} {n dx dz : Nat} {a : StripeArgs}
    {ncore nchunk : Option Nat} {tomo : Nat → Nat → Nat → ℝ} {r : Except PyErr (Nat → Nat → Nat → Option ℝ)}
    (hn : 0 < n) (hd : 0 < dx) (ha : DefaultLevel a → n ≤ 2 ^ Nat.clog 2 (max dx dz))
    (h : RemoveStripe cpu debug n dx dz a ncore nchunk tomo r) (hk : Sane cpu ncore nchunk)
    (h1 : ∀ s < n, ∃ cpu' debug' ncore' nchunk' Y, RemoveStripe cpu' debug' 1 dx dz a ncore' nchunk' (fun _ => tomo s) (.ok Y)) :
    ∃ Y, r = .ok Y := by
  unfold RemoveStripe at h
  refine sliceFilter_all h hn hk.1 hk.2.1 hk.2.2 fun s hs => ?_
  obtain ⟨_, _, _, _, Y, hY⟩ := h1 s hs
  rw [stripeSlice_alone hd ha]
  exact ⟨Y 0, sliceFilter_ok hY 0 one_pos⟩

/-- **C172** The exceptions of a stack are those of its sinograms. -/
theorem removeStripe_error {cpu : Nat} {debug : Bool} {n dx dz : Nat} {a : StripeArgs}
    {ncore nchunk : Option Nat} {tomo : Nat → Nat → Nat → ℝ} {e : PyErr} (hn : 0 < n)
    (h : RemoveStripe cpu debug n dx dz a ncore nchunk tomo (.error e)) (hk : Sane cpu ncore nchunk) :
    ∃ s < n, stripeSlice n dx dz a (tomo s) = .error e := by
  rcases sliceFilter_error h with h | ⟨h, _⟩ | ⟨_, h | h | h, _⟩
  · exact h
  · exact absurd h hk.2.2
  · omega
  · exact absurd h hk.1
  · exact absurd h hk.2.1

/-- **C172** `nchunk = 0` always raises. -/
theorem removeStripe_nchunk_zero {cpu : Nat} {debug : Bool} {n dx dz : Nat} {a : StripeArgs}
    {ncore : Option Nat} {tomo : Nat → Nat → Nat → ℝ} {r : Except PyErr (Nat → Nat → Nat → Option ℝ)} (hn : 0 < n)
    (h : RemoveStripe cpu debug n dx dz a ncore (some 0) tomo r) : r = .error a.noAxis := by
  unfold RemoveStripe SliceFilter at h
  obtain ⟨nc, hg⟩ := ncn_some_ok cpu n ncore 0
  rw [if_neg (fun h => h.1 rfl)] at hg
  rw [hg] at h
  dsimp only at h
  have hout : ∀ ch, chunkResult a.noAxis (stripeSlice n dx dz a) tomo 0 ch = .error a.noAxis := fun ch => if_pos rfl
  rcases h with ⟨⟨ys, hys⟩, -⟩ | ⟨-, ch, -, e, he, h⟩ | ⟨-, e, he, h⟩
  · exfalso
    obtain ⟨ch, hch, -⟩ := (mem_chunks (n := n) (nk := 0) (i := 0)).1 hn
    obtain ⟨y, hy⟩ := mapM_ok _ hys ch hch
    rw [hout] at hy
    cases hy
  · rw [hout] at he; cases he; exact h
  · obtain ⟨ch, -, hc⟩ := mapM_error _ he
    rw [hout] at hc; cases hc; exact h

/-- **C172** Every call ends. -/
theorem removeStripe_total (cpu : Nat) (debug : Bool) (n dx dz : Nat) (a : StripeArgs) (ncore nchunk : Option Nat)
    (tomo : Nat → Nat → Nat → ℝ) : ∃ r, RemoveStripe cpu debug n dx dz a ncore nchunk tomo r :=
  sliceFilter_total ..

/-- **C172** `remove_stripe_sf`: the loop over sinograms is in C. -/
theorem sf_alone {K : Type} [Field K] [CharZero K] {cpu cpu' : Nat} {debug debug' : Bool} {n dx dz : Nat} {size : Int}
    {ncore nchunk ncore' nchunk' : Option Nat} {m m' m1 m1' : Mproc.Cell → Sino K} {res res1 : Buf}
    (h : DistributeJobs cpu debug
      ⟨n, [0], none, fun _ => false, cRemoveStripeSf dx dz size, ncore, nchunk, fun _ => false⟩
      (fun _ => false) m m' res) {s : Nat} (hs : s < n)
    (h1 : DistributeJobs cpu' debug'
      ⟨1, [0], none, fun _ => false, cRemoveStripeSf dx dz size, ncore', nchunk', fun _ => false⟩
      (fun _ => false) m1 m1' res1) (hm : m1 (.caller 0, 0) = m (.caller 0, s)) :
    ∀ p < dx, ∀ j < dz, m' (res, s) p j = m1' (res1, 0) p j := by
  intro p hp j hj
  rw [sf_distributed cpu debug n dx dz size ncore nchunk m m' res h s hs p hp j hj,
    sf_distributed cpu' debug' 1 dx dz size ncore' nchunk' m1 m1' res1 h1 0 one_pos p hp j hj, hm]

/-- **C172** (what is false) With the default number of levels of `remove_stripe_fw` the result of a
sinogram depends on the number of sinograms: five equal sinograms of three angles and two columns are
filtered otherwise than one of them, for every `sigma` and all numbers of cores. -/
theorem fw_default_wrong {cpu cpu' : Nat} {debug debug' : Bool} {ncore nchunk ncore' nchunk' : Option Nat} (sigma : ℝ)
    {r r1 : Except PyErr (Nat → Nat → Nat → Option ℝ)} (hk : Sane cpu ncore nchunk) (hk' : Sane cpu' ncore' nchunk')
    (h : RemoveStripe cpu debug 5 3 2 (.fw db2 none sigma false) ncore nchunk (fun _ _ i => if i = 0 then 1 else 0) r)
    (h1 : RemoveStripe cpu' debug' 1 3 2 (.fw db2 none sigma false) ncore' nchunk'
      (fun _ _ i => if i = 0 then 1 else 0) r1) :
    ∃ Y Y1, r = .ok Y ∧ r1 = .ok Y1 ∧ ∀ s < 5, ∃ i < 2, Y s 0 i ≠ Y1 0 0 i := by
  set x : Nat → ℝ := fun i => if i = 0 then 1 else 0 with hx
  have run : ∀ (n : Nat) (X : Nat → Nat → ℝ), ∃ Z, fwSlice db2 (fwLevel (3, n, 2) none) sigma false 3 2 X = .ok Z ∧
      stripeSlice n 3 2 (.fw db2 none sigma false) X = .ok fun t i => some (Z t i) := by
    intro n X
    obtain ⟨Z, hZ⟩ := fw_total db2_ok (fwLevel (3, n, 2) none) sigma false (dx := 3) (dz := 2) (by norm_num)
      (by norm_num) X
    refine ⟨Z, hZ, ?_⟩
    simp only [stripeSlice]
    rw [hZ]
    rfl
  have l5 : fwLevel (3, 5, 2) none = 3 := by
    unfold fwLevel
    decide +kernel
  have l1 : fwLevel (3, 1, 2) none = 2 := by
    unfold fwLevel
    decide +kernel
  obtain ⟨Y, rfl⟩ := sliceFilter_all h (by norm_num) hk.1 hk.2.1 hk.2.2 fun s _ => by
    obtain ⟨Z, _, h⟩ := run 5 fun _ i => x i
    exact ⟨_, h⟩
  obtain ⟨Y1, rfl⟩ := sliceFilter_all h1 (by norm_num) hk'.1 hk'.2.1 hk'.2.2 fun s _ => by
    obtain ⟨Z, _, h⟩ := run 1 fun _ i => x i
    exact ⟨_, h⟩
  refine ⟨Y, Y1, rfl, rfl, fun s hs => ?_⟩
  obtain ⟨Z, hZ, hS⟩ := run 5 fun _ i => x i
  obtain ⟨Z1, hZ1, hS1⟩ := run 1 fun _ i => x i
  have e := sliceFilter_ok h s hs
  have e1 := sliceFilter_ok h1 0 one_pos
  rw [hS] at e
  rw [hS1] at e1
  rw [l5] at hZ
  rw [l1] at hZ1
  have d := fw_db2_columns sigma 3 x hZ
  have d1 := fw_db2_columns sigma 2 x hZ1
  by_contra hne
  push Not at hne
  rw [← Except.ok.inj e, ← Except.ok.inj e1] at hne
  have h0 : Z 0 0 = Z1 0 0 := Option.some.inj (hne 0 (by norm_num))
  have h1 : Z 0 1 = Z1 0 1 := Option.some.inj (hne 1 (by norm_num))
  rw [h0, h1, d1] at d
  norm_num [hx] at d

/-! A call that returns, one that raises in a sinogram (one column has no line to fit
through), and the condition on the number of sinograms. -/

example : ∃ Y, RemoveStripe 4 false 7 9 5 (.sorting argsortUp none 1) none (some 2) (fun s t i => s + t * i) (.ok Y) := by
  obtain ⟨r, hr⟩ := removeStripe_total 4 false 7 9 5 (.sorting argsortUp none 1) none (some 2) fun s t i => s + t * i
  obtain ⟨Y, rfl⟩ := sliceFilter_all hr (by norm_num) (by norm_num) (by simp) (by simp) fun s _ => ⟨_, rfl⟩
  exact ⟨Y, hr⟩

example {r} (h : RemoveStripe 4 false 3 6 1 (.large argsortUp 3 51 (1 / 10) true) none none (fun s t i => s + t * i) r) :
    r = .error .type := by
  have he : ∀ X, stripeSlice 3 6 1 (.large argsortUp 3 51 (1 / 10) true) X = .error .type := fun X => by
    simp [stripeSlice, rsLarge, detectStripe, polyfit1]
  rcases r with e | Y
  · obtain ⟨s, _, hs⟩ := removeStripe_error (by norm_num) h ⟨by norm_num, by simp, by simp⟩
    rw [he] at hs
    cases hs
    rfl
  · have := sliceFilter_ok h 0 (by norm_num)
    rw [he] at this
    cases this

example : Sane 4 (some 2) none ∧ ∃ r, RemoveStripe 4 false 5 3 2 (.fw db2 none 2 false) (some 2) none
    (fun _ _ i => if i = 0 then 1 else 0) r :=
  ⟨⟨by norm_num, by simp, by simp⟩, removeStripe_total ..⟩

/-- 1501 angles and 2048 columns: up to 2048 sinograms. -/
example : 2 ^ Nat.clog 2 (max 1501 2048) = 2048 := by decide +kernel

end

end Tomopy.Stripe
