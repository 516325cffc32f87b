import Verif.Gpu.Model
import Mathlib.Algebra.BigOperators.Intervals
import Mathlib.Data.Fintype.Pigeonhole
import Mathlib.Tactic.Ring

set_option linter.unusedSimpArgs false

/-! C49: every chunk is processed once, no GPU is shared, every GPU is released. -/

namespace Tomopy.Gpu

/-! ### Chunks -/

/-- **C49** (chunks).  The chunks are consecutive and together are all slices. -/
theorem ids_partition (Ns S : Nat) (hS : 0 < S) : ∃ l, idsList Ns S = .ok l ∧
    l.flatMap (fun c => List.range' c.1 (c.2 - c.1)) = List.range Ns ∧
    (∀ c ∈ l, c.1 < c.2 ∧ c.2 ≤ Ns ∧ c.2 - c.1 ≤ S) ∧ writeRows 0 l = l := by
  have hm : ∀ m, m ≤ (Ns + S - 1) / S → ∀ k < m, k * S < Ns := by
    intro m hm k hk
    have h1 : k + 1 ≤ (Ns + S - 1) / S := by omega
    have h2 := (Nat.le_div_iff_mul_le hS).1 h1
    rw [Nat.succ_mul] at h2
    omega
  have hcov : Ns ≤ (Ns + S - 1) / S * S := by
    have h1 := Nat.div_add_mod (Ns + S - 1) S
    have h2 := Nat.mod_lt (Ns + S - 1) hS
    rw [Nat.mul_comm] at h1
    omega
  refine ⟨_, if_neg (by omega), ?_, ?_, ?_⟩
  · have key : ∀ m, m ≤ (Ns + S - 1) / S →
        ((List.range m).map fun k => (k * S, min Ns ((k + 1) * S))).flatMap
          (fun c => List.range' c.1 (c.2 - c.1)) = List.range (min Ns (m * S)) := by
      intro m
      induction m with
      | zero => intro _; simp
      | succ m ih =>
        intro h
        have h1 := hm (m + 1) h m (by omega)
        rw [List.range_succ, List.map_append, List.flatMap_append, ih (by omega)]
        simp only [List.map_cons, List.map_nil, List.flatMap_cons, List.flatMap_nil,
          List.append_nil]
        rw [Nat.min_eq_right h1.le, List.range_eq_range', List.range_eq_range']
        have e : min Ns ((m + 1) * S) = m * S + (min Ns ((m + 1) * S) - m * S) := by
          rw [Nat.succ_mul]; omega
        conv_rhs => rw [e]
        rw [← List.range'_append_1, Nat.zero_add]
    rw [key _ (le_refl _), Nat.min_eq_left hcov]
  · intro c hc
    obtain ⟨k, hk, rfl⟩ := List.mem_map.1 hc
    have h1 := hm _ (le_refl _) k (List.mem_range.1 hk)
    dsimp only
    rw [Nat.succ_mul]
    omega
  · have key : ∀ m a, a + m ≤ (Ns + S - 1) / S →
        writeRows (a * S) ((List.range' a m).map fun k => (k * S, min Ns ((k + 1) * S)))
          = (List.range' a m).map fun k => (k * S, min Ns ((k + 1) * S)) := by
      intro m
      induction m with
      | zero => intro a _; rfl
      | succ m ih =>
        intro a h
        have h1 := hm (a + 1) (by omega) a (by omega)
        rw [List.range'_succ, List.map_cons, writeRows]
        have e : a * S + (min Ns ((a + 1) * S) - a * S) = min Ns ((a + 1) * S) := by
          rw [Nat.succ_mul]; omega
        dsimp only
        rw [e]
        congr 1
        cases m with
        | zero => rfl
        | succ m =>
          have h2 := hm (a + 2) (by omega) (a + 1) (by omega)
          rw [Nat.min_eq_right h2.le]
          exact ih (a + 1) (by omega)
    have := key ((Ns + S - 1) / S) 0 (by omega)
    rw [Nat.zero_mul, ← List.range_eq_range'] at this
    exact this

/-- Slices wider than 4096 pixels cannot be reconstructed: the number of slices per chunk is zero
and the next line divides by it. -/
theorem wide_raises (N Ns ngpus : Nat) (hN : 4096 < N) (hg : 0 < ngpus) :
    perGpu N Ns ngpus = .ok 0 ∧ idsList Ns 0 = .error .zeroDivision := by
  refine ⟨?_, rfl⟩
  unfold perGpu
  rw [if_neg (by omega)]
  have : 2 ^ 24 / (N * N) = 0 := by
    apply Nat.div_eq_of_lt
    calc 2 ^ 24 = 4096 * 4096 := by norm_num
      _ < N * N := Nat.mul_lt_mul_of_lt_of_lt hN hN
  rw [this, Nat.zero_min]

/-- Up to 4096 pixels there is at least one slice per chunk. -/
theorem narrow_positive (N Ns ngpus : Nat) (h0 : 0 < N) (hN : N ≤ 4096) (hs : 0 < Ns) (hg : 0 < ngpus) :
    ∃ S, perGpu N Ns ngpus = .ok S ∧ 0 < S := by
  refine ⟨_, if_neg (by omega), ?_⟩
  have h1 : 0 < 2 ^ 24 / (N * N) := by
    apply Nat.div_pos _ (Nat.mul_pos h0 h0)
    calc N * N ≤ 4096 * 4096 := Nat.mul_le_mul hN hN
      _ = 2 ^ 24 := by norm_num
  have h2 : 0 < (Ns + ngpus - 1) / ngpus := Nat.div_pos (by omega) hg
  omega

/-! ### Threads -/

variable {n : Nat}

/-- The GPU a thread has taken. -/
def Pc.gpu : Pc → Option Nat
  | .hold _ k => some k
  | .run _ k => some k
  | _ => none

/-- The chunk a thread works on. -/
def Pc.chunk : Pc → Multiset Nat
  | .idle => 0
  | .want c => {c}
  | .scan c _ => {c}
  | .see c _ => {c}
  | .hold c _ => {c}
  | .run c _ => {c}

/-- The thread is between `acquire` and `release`. -/
def Pc.locked : Pc → Bool
  | .scan _ _ => true
  | .see _ _ => true
  | .hold _ _ => true
  | _ => false

/-- What holds in every reachable state when no reconstruction raises. -/
structure Inv (chunks : List Nat) (s : St n) : Prop where
  lock : ∀ w, s.lock = some w ↔ (s.pc w).locked = true
  busy : ∀ k, s.busy k = true ↔ ∃ w, (s.pc w).gpu = some k
  alone : ∀ w v k, (s.pc w).gpu = some k → (s.pc v).gpu = some k → w = v
  range : ∀ w k, (s.pc w).gpu = some k → k < n
  see : ∀ w c k, s.pc w = .see c k → s.busy k = false ∧ k < n
  free : ∀ w c k, s.pc w = .scan c k → ∃ j, k ≤ j ∧ j < n ∧ s.busy j = false
  account : (s.queue : Multiset Nat) + ∑ w, (s.pc w).chunk + (s.done.map Prod.fst : List Nat) = chunks
  failed : s.failed = []

theorem sum_chunk (f : Fin n → Pc) (w : Fin n) (p : Pc) :
    ∑ v, (Function.update f w p v).chunk + (f w).chunk = ∑ v, (f v).chunk + p.chunk := by
  have h1 : (fun v => (Function.update f w p v).chunk)
      = Function.update (fun v => (f v).chunk) w p.chunk := by
    funext v
    by_cases h : v = w
    · subst h; simp
    · simp [h]
  rw [h1, Finset.sum_update_of_mem (Finset.mem_univ w)]
  have h2 := Finset.sum_erase_add Finset.univ (fun v => (f v).chunk) (Finset.mem_univ w)
  rw [← h2, Finset.sdiff_singleton_eq_erase]
  ac_rfl

/-- With as many threads as GPUs, a thread that has no GPU leaves one free. -/
theorem exists_free (s : St n) (busy : ∀ k, s.busy k = true → ∃ w, (s.pc w).gpu = some k)
    (w : Fin n) (hw : (s.pc w).gpu = none) : ∃ j, j < n ∧ s.busy j = false := by
  by_contra h
  push Not at h
  have hb : ∀ j : Fin n, ∃ v, (s.pc v).gpu = some j.1 := by
    intro j
    apply busy
    have := h j.1 j.2
    simpa using this
  choose f hf using hb
  have hinj : Function.Injective f := by
    intro a b hab
    have h1 := hf a
    rw [hab, hf b] at h1
    injection h1 with h1
    exact Fin.ext h1.symm
  obtain ⟨j, hj⟩ := (Finite.injective_iff_surjective.1 hinj) w
  have := hf j
  rw [hj, hw] at this
  exact absurd this (by simp)

theorem inv_init (chunks : List Nat) : Inv chunks (init n chunks) := by
  refine ⟨?_, ?_, ?_, ?_, ?_, ?_, ?_, rfl⟩ <;> simp [init, Pc.locked, Pc.gpu, Pc.chunk]

theorem inv_step (raises : Nat → Bool) (hr : ∀ c, raises c = false) (chunks : List Nat) (s t : St n)
    (h : Inv chunks s) (st : Step raises s t) : Inv chunks t := by
  have upd : ∀ (w v : Fin n) (p : Pc), Function.update s.pc w p v = if v = w then p else s.pc v :=
    fun w v p => Function.update_apply _ _ _ _
  cases st with
  | take w c q hp hq =>
    have hc := sum_chunk s.pc w (.want c)
    rw [hp] at hc
    refine ⟨?_, ?_, ?_, ?_, ?_, ?_, ?_, h.failed⟩
    · intro v
      rw [h.lock v]
      by_cases hv : v = w
      · subst hv; simp [hp, Pc.locked]
      · simp [hv]
    · intro k
      rw [h.busy k]
      constructor <;> rintro ⟨v, hv⟩ <;> refine ⟨v, ?_⟩
      · have : v ≠ w := by rintro rfl; simp [hp, Pc.gpu] at hv
        simpa [this] using hv
      · have : v ≠ w := by rintro rfl; simp [Pc.gpu] at hv
        simpa [this] using hv
    · intro a b k ha hb
      have h1 : a ≠ w := by rintro rfl; simp [Pc.gpu] at ha
      have h2 : b ≠ w := by rintro rfl; simp [Pc.gpu] at hb
      exact h.alone a b k (by simpa [h1] using ha) (by simpa [h2] using hb)
    · intro a k ha
      have h1 : a ≠ w := by rintro rfl; simp [Pc.gpu] at ha
      exact h.range a k (by simpa [h1] using ha)
    · intro a c' k ha
      have h1 : a ≠ w := by rintro rfl; simp at ha
      exact h.see a c' k (by simpa [h1] using ha)
    · intro a c' k ha
      have h1 : a ≠ w := by rintro rfl; simp at ha
      exact h.free a c' k (by simpa [h1] using ha)
    · have := h.account
      rw [hq] at this
      rw [← this]
      dsimp only
      have e : ∑ v, (Function.update s.pc w (Pc.want c) v).chunk = ∑ v, (s.pc v).chunk + {c} := by
        simpa [Pc.chunk] using hc
      rw [e, ← Multiset.cons_coe, ← Multiset.singleton_add]
      ac_rfl
  | acquire w c hp hl =>
    have hc := sum_chunk s.pc w (.scan c 0)
    rw [hp] at hc
    have hno : ∀ v, (s.pc v).locked = false := by
      intro v
      have := h.lock v
      rw [hl] at this
      cases hx : (s.pc v).locked with
      | false => rfl
      | true => rw [hx] at this; exact absurd (this.2 rfl) (by simp)
    refine ⟨?_, ?_, ?_, ?_, ?_, ?_, ?_, h.failed⟩
    · intro v
      by_cases hv : v = w
      · subst hv; simp [Pc.locked]
      · simp [hv, hno v]
        exact fun e => hv e.symm
    · intro k
      rw [h.busy k]
      constructor <;> rintro ⟨v, hv⟩ <;> refine ⟨v, ?_⟩
      · have : v ≠ w := by rintro rfl; simp [hp, Pc.gpu] at hv
        simpa [this] using hv
      · have : v ≠ w := by rintro rfl; simp [Pc.gpu] at hv
        simpa [this] using hv
    · intro a b k ha hb
      have h1 : a ≠ w := by rintro rfl; simp [Pc.gpu] at ha
      have h2 : b ≠ w := by rintro rfl; simp [Pc.gpu] at hb
      exact h.alone a b k (by simpa [h1] using ha) (by simpa [h2] using hb)
    · intro a k ha
      have h1 : a ≠ w := by rintro rfl; simp [Pc.gpu] at ha
      exact h.range a k (by simpa [h1] using ha)
    · intro a c' k ha
      have h1 : a ≠ w := by rintro rfl; simp at ha
      exact h.see a c' k (by simpa [h1] using ha)
    · intro a c' k ha
      by_cases h1 : a = w
      · subst h1
        simp at ha
        obtain ⟨-, rfl⟩ := ha
        obtain ⟨j, hj, hb⟩ := exists_free s (fun k => (h.busy k).1) a (by rw [hp]; rfl)
        exact ⟨j, Nat.zero_le _, hj, hb⟩
      · exact h.free a c' k (by simpa [h1] using ha)
    · have := h.account
      rw [← this]
      dsimp only
      have e : ∑ v, (Function.update s.pc w (Pc.scan c 0) v).chunk = ∑ v, (s.pc v).chunk := by
        have e' : (Pc.want c).chunk = (Pc.scan c 0).chunk := rfl
        rw [e'] at hc
        exact add_right_cancel hc
      rw [e]
  | skip w c k hp hk hb =>
    have hc := sum_chunk s.pc w (.scan c (k + 1))
    rw [hp] at hc
    refine ⟨?_, ?_, ?_, ?_, ?_, ?_, ?_, h.failed⟩
    · intro v
      rw [h.lock v]
      by_cases hv : v = w
      · subst hv; simp [hp, Pc.locked]
      · simp [hv]
    · intro k
      rw [h.busy k]
      constructor <;> rintro ⟨v, hv⟩ <;> refine ⟨v, ?_⟩
      · have : v ≠ w := by rintro rfl; simp [hp, Pc.gpu] at hv
        simpa [this] using hv
      · have : v ≠ w := by rintro rfl; simp [Pc.gpu] at hv
        simpa [this] using hv
    · intro a b k ha hb
      have h1 : a ≠ w := by rintro rfl; simp [Pc.gpu] at ha
      have h2 : b ≠ w := by rintro rfl; simp [Pc.gpu] at hb
      exact h.alone a b k (by simpa [h1] using ha) (by simpa [h2] using hb)
    · intro a k ha
      have h1 : a ≠ w := by rintro rfl; simp [Pc.gpu] at ha
      exact h.range a k (by simpa [h1] using ha)
    · intro a c' k ha
      have h1 : a ≠ w := by rintro rfl; simp at ha
      exact h.see a c' k (by simpa [h1] using ha)
    · intro a c' k' ha
      by_cases h1 : a = w
      · subst h1
        simp at ha
        obtain ⟨-, rfl⟩ := ha
        obtain ⟨j, hj, hn, hf⟩ := h.free a c k hp
        refine ⟨j, ?_, hn, hf⟩
        rcases Nat.lt_or_ge k j with h2 | h2
        · exact h2
        · obtain rfl : j = k := by omega
          rw [hb] at hf
          exact absurd hf (by decide)
      · exact h.free a c' k' (by simpa [h1] using ha)
    · have := h.account
      rw [← this]
      dsimp only
      have e : ∑ v, (Function.update s.pc w (Pc.scan c (k + 1)) v).chunk = ∑ v, (s.pc v).chunk := by
        have e' : (Pc.scan c k).chunk = (Pc.scan c (k + 1)).chunk := rfl
        rw [e'] at hc
        exact add_right_cancel hc
      rw [e]
  | look w c k hp hk hb =>
    have hc := sum_chunk s.pc w (.see c k)
    rw [hp] at hc
    refine ⟨?_, ?_, ?_, ?_, ?_, ?_, ?_, h.failed⟩
    · intro v
      rw [h.lock v]
      by_cases hv : v = w
      · subst hv; simp [hp, Pc.locked]
      · simp [hv]
    · intro k
      rw [h.busy k]
      constructor <;> rintro ⟨v, hv⟩ <;> refine ⟨v, ?_⟩
      · have : v ≠ w := by rintro rfl; simp [hp, Pc.gpu] at hv
        simpa [this] using hv
      · have : v ≠ w := by rintro rfl; simp [Pc.gpu] at hv
        simpa [this] using hv
    · intro a b k ha hb
      have h1 : a ≠ w := by rintro rfl; simp [Pc.gpu] at ha
      have h2 : b ≠ w := by rintro rfl; simp [Pc.gpu] at hb
      exact h.alone a b k (by simpa [h1] using ha) (by simpa [h2] using hb)
    · intro a k ha
      have h1 : a ≠ w := by rintro rfl; simp [Pc.gpu] at ha
      exact h.range a k (by simpa [h1] using ha)
    · intro a c' k' ha
      by_cases h1 : a = w
      · subst h1
        simp at ha
        obtain ⟨-, rfl⟩ := ha
        exact ⟨hb, hk⟩
      · exact h.see a c' k' (by simpa [h1] using ha)
    · intro a c' k ha
      have h1 : a ≠ w := by rintro rfl; simp at ha
      exact h.free a c' k (by simpa [h1] using ha)
    · have := h.account
      rw [← this]
      dsimp only
      have e : ∑ v, (Function.update s.pc w (Pc.see c k) v).chunk = ∑ v, (s.pc v).chunk := by
        have e' : (Pc.scan c k).chunk = (Pc.see c k).chunk := rfl
        rw [e'] at hc
        exact add_right_cancel hc
      rw [e]
  | mark w c k hp =>
    have hc := sum_chunk s.pc w (.hold c k)
    rw [hp] at hc
    obtain ⟨hb, hk⟩ := h.see w c k hp
    have hone : ∀ v, v ≠ w → (s.pc v).locked = false := by
      intro v hv
      have h1 := (h.lock w).2 (by rw [hp]; rfl)
      cases hx : (s.pc v).locked with
      | false => rfl
      | true =>
        have h2 := (h.lock v).2 hx
        rw [h1] at h2
        injection h2 with h2
        exact absurd h2.symm hv
    have hnone : ∀ v, (s.pc v).gpu ≠ some k := by
      intro v hv
      have := (h.busy k).2 ⟨v, hv⟩
      rw [hb] at this
      exact absurd this (by decide)
    refine ⟨?_, ?_, ?_, ?_, ?_, ?_, ?_, h.failed⟩
    · intro v
      rw [h.lock v]
      by_cases hv : v = w
      · subst hv; simp [hp, Pc.locked]
      · simp [hv]
    · intro j
      by_cases hj : j = k
      · subst hj
        simp only [Function.update_self, true_iff]
        exact ⟨w, by simp [Pc.gpu]⟩
      · dsimp only
        rw [Function.update_of_ne hj, h.busy j]
        constructor <;> rintro ⟨v, hv⟩ <;> refine ⟨v, ?_⟩
        · have : v ≠ w := by rintro rfl; simp [hp, Pc.gpu] at hv
          simpa [this] using hv
        · have : v ≠ w := by
            rintro rfl
            simp [Pc.gpu] at hv
            exact hj hv.symm
          simpa [this] using hv
    · intro a b j ha hb'
      by_cases h1 : a = w <;> by_cases h2 : b = w
      · rw [h1, h2]
      · subst h1
        simp [Pc.gpu] at ha
        subst ha
        exact absurd (by simpa [h2] using hb') (hnone b)
      · subst h2
        simp [Pc.gpu] at hb'
        subst hb'
        exact absurd (by simpa [h1] using ha) (hnone a)
      · exact h.alone a b j (by simpa [h1] using ha) (by simpa [h2] using hb')
    · intro a j ha
      by_cases h1 : a = w
      · subst h1
        simp [Pc.gpu] at ha
        omega
      · exact h.range a j (by simpa [h1] using ha)
    · intro a c' j ha
      have h1 : a ≠ w := by rintro rfl; simp at ha
      have ha' : s.pc a = .see c' j := by simpa [h1] using ha
      have := hone a h1
      rw [ha'] at this
      exact absurd this (by simp [Pc.locked])
    · intro a c' j ha
      have h1 : a ≠ w := by rintro rfl; simp at ha
      have ha' : s.pc a = .scan c' j := by simpa [h1] using ha
      have := hone a h1
      rw [ha'] at this
      exact absurd this (by simp [Pc.locked])
    · have := h.account
      rw [← this]
      dsimp only
      have e : ∑ v, (Function.update s.pc w (Pc.hold c k) v).chunk = ∑ v, (s.pc v).chunk := by
        have e' : (Pc.see c k).chunk = (Pc.hold c k).chunk := rfl
        rw [e'] at hc
        exact add_right_cancel hc
      rw [e]
  | release w c k hp =>
    have hc := sum_chunk s.pc w (.run c k)
    rw [hp] at hc
    have hone : ∀ v, v ≠ w → (s.pc v).locked = false := by
      intro v hv
      have h1 := (h.lock w).2 (by rw [hp]; rfl)
      cases hx : (s.pc v).locked with
      | false => rfl
      | true =>
        have h2 := (h.lock v).2 hx
        rw [h1] at h2
        injection h2 with h2
        exact absurd h2.symm hv
    have hg : ∀ v, (Function.update s.pc w (Pc.run c k) v).gpu = (s.pc v).gpu := by
      intro v
      by_cases hv : v = w
      · subst hv; simp [hp, Pc.gpu]
      · simp [hv]
    refine ⟨?_, ?_, ?_, ?_, ?_, ?_, ?_, h.failed⟩
    · intro v
      by_cases hv : v = w
      · subst hv; simp [Pc.locked]
      · simp [hv, hone v hv]
    · intro j
      simp only [hg]
      exact h.busy j
    · intro a b j ha hb
      simp only [hg] at ha hb
      exact h.alone a b j ha hb
    · intro a j ha
      simp only [hg] at ha
      exact h.range a j ha
    · intro a c' j ha
      have h1 : a ≠ w := by rintro rfl; simp at ha
      exact h.see a c' j (by simpa [h1] using ha)
    · intro a c' j ha
      have h1 : a ≠ w := by rintro rfl; simp at ha
      exact h.free a c' j (by simpa [h1] using ha)
    · have := h.account
      rw [← this]
      dsimp only
      have e : ∑ v, (Function.update s.pc w (Pc.run c k) v).chunk = ∑ v, (s.pc v).chunk := by
        have e' : (Pc.hold c k).chunk = (Pc.run c k).chunk := rfl
        rw [e'] at hc
        exact add_right_cancel hc
      rw [e]
  | unbound w c hp =>
    obtain ⟨j, h1, h2, -⟩ := h.free w c n hp
    omega
  | finish w c k hp hr' =>
    have hc := sum_chunk s.pc w .idle
    rw [hp] at hc
    have hw : (s.pc w).gpu = some k := by rw [hp]; rfl
    refine ⟨?_, ?_, ?_, ?_, ?_, ?_, ?_, h.failed⟩
    · intro v
      rw [h.lock v]
      by_cases hv : v = w
      · subst hv; simp [hp, Pc.locked]
      · simp [hv]
    · intro j
      by_cases hj : j = k
      · subst hj
        simp only [Function.update_self, Bool.false_eq_true, false_iff]
        rintro ⟨v, hv⟩
        have h1 : v ≠ w := by rintro rfl; simp [Pc.gpu] at hv
        exact h1 (h.alone v w j (by simpa [h1] using hv) hw)
      · dsimp only
        rw [Function.update_of_ne hj, h.busy j]
        constructor <;> rintro ⟨v, hv⟩ <;> refine ⟨v, ?_⟩
        · have : v ≠ w := by
            rintro rfl
            rw [hw] at hv
            injection hv with hv
            exact hj hv.symm
          simpa [this] using hv
        · have : v ≠ w := by rintro rfl; simp [Pc.gpu] at hv
          simpa [this] using hv
    · intro a b j ha hb
      have h1 : a ≠ w := by rintro rfl; simp [Pc.gpu] at ha
      have h2 : b ≠ w := by rintro rfl; simp [Pc.gpu] at hb
      exact h.alone a b j (by simpa [h1] using ha) (by simpa [h2] using hb)
    · intro a j ha
      have h1 : a ≠ w := by rintro rfl; simp [Pc.gpu] at ha
      exact h.range a j (by simpa [h1] using ha)
    · intro a c' j ha
      have h1 : a ≠ w := by rintro rfl; simp at ha
      obtain ⟨h2, h3⟩ := h.see a c' j (by simpa [h1] using ha)
      refine ⟨?_, h3⟩
      by_cases hj : j = k
      · subst hj; simp
      · simpa [hj] using h2
    · intro a c' j ha
      have h1 : a ≠ w := by rintro rfl; simp at ha
      obtain ⟨i, h2, h3, h4⟩ := h.free a c' j (by simpa [h1] using ha)
      refine ⟨i, h2, h3, ?_⟩
      by_cases hj : i = k
      · subst hj; simp
      · simpa [hj] using h4
    · have := h.account
      rw [← this]
      dsimp only
      have e : ∑ v, (s.pc v).chunk = ∑ v, (Function.update s.pc w Pc.idle v).chunk + {c} := by
        simpa [Pc.chunk] using hc.symm
      rw [e, List.map_cons, ← Multiset.cons_coe, ← Multiset.singleton_add]
      ac_rfl
  | fail w c k hp hr' =>
    rw [hr c] at hr'
    exact absurd hr' (by decide)

theorem inv_steps (raises : Nat → Bool) (hr : ∀ c, raises c = false) (chunks : List Nat) (s : St n)
    (h : Steps raises (init n chunks) s) : Inv chunks s := by
  generalize hi : init n chunks = s0 at h
  induction h with
  | refl => exact hi ▸ inv_init chunks
  | tail t u _ hs ih => exact inv_step raises hr chunks t u ih hs

/-- **C49** (no sharing).  At any time of any execution without exceptions, two threads never
reconstruct on the same entry of `gpu_list`, nor on the same GPU when its entries differ, every
thread that looks for a GPU finds one, and a flag is set exactly while its GPU is taken. -/
theorem gpu_exclusive_partial (raises : Nat → Bool) (hr : ∀ c, raises c = false) (chunks : List Nat)
    (s : St n) (h : Steps raises (init n chunks) s) (gpus : Nat → Nat)
    (hg : ∀ i < n, ∀ j < n, gpus i = gpus j → i = j) :
    (∀ v w c d j k, s.pc v = .run c j → s.pc w = .run d k → v ≠ w → gpus j ≠ gpus k) ∧
    s.failed = [] ∧ (∀ w c, s.pc w ≠ .scan c n) ∧
    (∀ k, s.busy k = true ↔ ∃ w c, s.pc w = .hold c k ∨ s.pc w = .run c k) := by
  have i := inv_steps raises hr chunks s h
  refine ⟨?_, i.failed, ?_, ?_⟩
  · intro v w c d j k hv hw hne hjk
    have g1 : (s.pc v).gpu = some j := by rw [hv]; rfl
    have g2 : (s.pc w).gpu = some k := by rw [hw]; rfl
    have := hg j (i.range v j g1) k (i.range w k g2) hjk
    subst this
    exact hne (i.alone v w j g1 g2)
  · intro w c hw
    obtain ⟨j, h1, h2, -⟩ := i.free w c n hw
    omega
  · intro k
    rw [i.busy k]
    constructor
    · rintro ⟨w, hw⟩
      cases hp : s.pc w <;> rw [hp] at hw <;> simp [Pc.gpu] at hw
      · subst hw; exact ⟨w, _, Or.inl hp⟩
      · subst hw; exact ⟨w, _, Or.inr hp⟩
    · rintro ⟨w, c, hw | hw⟩ <;> exact ⟨w, by rw [hw]; rfl⟩

/-! ### Ending -/

/-- Bound on the steps left for a thread. -/
def Pc.rank (n : Nat) : Pc → Nat
  | .idle => 0
  | .want _ => n + 5
  | .scan _ k => n + 4 - k
  | .see _ _ => 3
  | .hold _ _ => 2
  | .run _ _ => 1

/-- Bound on the steps left. -/
def St.rank (s : St n) : Nat := s.queue.length * (n + 6) + ∑ w, (s.pc w).rank n

theorem sum_rank (f : Fin n → Pc) (w : Fin n) (p : Pc) :
    ∑ v, (Function.update f w p v).rank n + (f w).rank n = ∑ v, (f v).rank n + p.rank n := by
  have h1 : (fun v => (Function.update f w p v).rank n)
      = Function.update (fun v => (f v).rank n) w (p.rank n) := by
    funext v
    by_cases h : v = w
    · subst h; simp
    · simp [h]
  rw [h1, Finset.sum_update_of_mem (Finset.mem_univ w)]
  have h2 := Finset.sum_erase_add Finset.univ (fun v => (f v).rank n) (Finset.mem_univ w)
  rw [← h2, Finset.sdiff_singleton_eq_erase]
  omega

theorem rank_idle : Pc.idle.rank n = 0 := rfl
theorem rank_want (c : Nat) : (Pc.want c).rank n = n + 5 := rfl
theorem rank_scan (c k : Nat) : (Pc.scan c k).rank n = n + 4 - k := rfl
theorem rank_see (c k : Nat) : (Pc.see c k).rank n = 3 := rfl
theorem rank_hold (c k : Nat) : (Pc.hold c k).rank n = 2 := rfl
theorem rank_run (c k : Nat) : (Pc.run c k).rank n = 1 := rfl

/-- Every step uses up one of the steps left. -/
theorem step_rank (raises : Nat → Bool) (s t : St n) (h : Step raises s t) : t.rank < s.rank := by
  unfold St.rank
  cases h with
  | take w c q hp hq =>
    have := sum_rank s.pc w (.want c)
    rw [hp] at this
    simp only [rank_idle, rank_want, rank_scan, rank_see, rank_hold, rank_run] at this
    dsimp only
    rw [hq, List.length_cons, Nat.succ_mul]
    omega
  | acquire w c hp hl =>
    have := sum_rank s.pc w (.scan c 0)
    rw [hp] at this
    simp only [rank_idle, rank_want, rank_scan, rank_see, rank_hold, rank_run] at this
    dsimp only
    omega
  | skip w c k hp hk hb =>
    have := sum_rank s.pc w (.scan c (k + 1))
    rw [hp] at this
    simp only [rank_idle, rank_want, rank_scan, rank_see, rank_hold, rank_run] at this
    dsimp only
    omega
  | look w c k hp hk hb =>
    have := sum_rank s.pc w (.see c k)
    rw [hp] at this
    simp only [rank_idle, rank_want, rank_scan, rank_see, rank_hold, rank_run] at this
    dsimp only
    omega
  | mark w c k hp =>
    have := sum_rank s.pc w (.hold c k)
    rw [hp] at this
    simp only [rank_idle, rank_want, rank_scan, rank_see, rank_hold, rank_run] at this
    dsimp only
    omega
  | release w c k hp =>
    have := sum_rank s.pc w (.run c k)
    rw [hp] at this
    simp only [rank_idle, rank_want, rank_scan, rank_see, rank_hold, rank_run] at this
    dsimp only
    omega
  | unbound w c hp =>
    have := sum_rank s.pc w .idle
    rw [hp] at this
    simp only [rank_idle, rank_want, rank_scan, rank_see, rank_hold, rank_run] at this
    dsimp only
    omega
  | finish w c k hp hr =>
    have := sum_rank s.pc w .idle
    rw [hp] at this
    simp only [rank_idle, rank_want, rank_scan, rank_see, rank_hold, rank_run] at this
    dsimp only
    omega
  | fail w c k hp hr =>
    have := sum_rank s.pc w .idle
    rw [hp] at this
    simp only [rank_idle, rank_want, rank_scan, rank_see, rank_hold, rank_run] at this
    dsimp only
    omega

/-- There is no infinite execution. -/
theorem steps_end (raises : Nat → Bool) : ¬ ∃ f : Nat → St n, ∀ i, Step raises (f i) (f (i + 1)) := by
  rintro ⟨f, hf⟩
  have : ∀ i, (f i).rank + i ≤ (f 0).rank := by
    intro i
    induction i with
    | zero => omega
    | succ i ih =>
      have := step_rank raises _ _ (hf i)
      omega
  have := this ((f 0).rank + 1)
  omega

/-- A state without a next step has no work left: nobody waits for the lock for ever. -/
theorem stuck_idle (raises : Nat → Bool) (hn : 0 < n) (chunks : List Nat) (s : St n)
    (h : Inv chunks s) (hs : ∀ t, ¬ Step raises s t) : s.queue = [] ∧ ∀ w, s.pc w = .idle := by
  have hnl : ∀ w, (s.pc w).locked = false := by
    intro w
    cases hp : s.pc w with
    | idle => rfl
    | want c => rfl
    | run c k => rfl
    | see c k => exact absurd (Step.mark s w c k hp) (hs _)
    | hold c k => exact absurd (Step.release s w c k hp) (hs _)
    | scan c k =>
      obtain ⟨j, h1, h2, -⟩ := h.free w c k hp
      cases hb : s.busy k with
      | true => exact absurd (Step.skip s w c k hp (by omega) hb) (hs _)
      | false => exact absurd (Step.look s w c k hp (by omega) hb) (hs _)
  have hlock : s.lock = none := by
    cases hl : s.lock with
    | none => rfl
    | some w =>
      have := (h.lock w).1 hl
      rw [hnl w] at this
      exact absurd this (by decide)
  have hidle : ∀ w, s.pc w = .idle := by
    intro w
    have hw := hnl w
    cases hp : s.pc w with
    | idle => rfl
    | want c => exact absurd (Step.acquire s w c hp hlock) (hs _)
    | run c k =>
      cases hr : raises c with
      | true => exact absurd (Step.fail s w c k hp hr) (hs _)
      | false => exact absurd (Step.finish s w c k hp hr) (hs _)
    | see c k => rw [hp] at hw; exact absurd hw (by simp [Pc.locked])
    | hold c k => rw [hp] at hw; exact absurd hw (by simp [Pc.locked])
    | scan c k => rw [hp] at hw; exact absurd hw (by simp [Pc.locked])
  refine ⟨?_, hidle⟩
  cases hq : s.queue with
  | nil => rfl
  | cons c q => exact absurd (Step.take s ⟨0, hn⟩ c q (hidle _) hq) (hs _)

/-- **C49** (completion).  Every execution without exceptions ends (`steps_end`), and when no
further step is possible every chunk has been processed exactly once, all GPUs are released and
the lock is free. -/
theorem gpu_complete_partial (raises : Nat → Bool) (hr : ∀ c, raises c = false) (hn : 0 < n)
    (chunks : List Nat) (s : St n) (h : Steps raises (init n chunks) s)
    (hs : ∀ t, ¬ Step raises s t) :
    (s.done.map Prod.fst).Perm chunks ∧ (∀ k, s.busy k = false) ∧ s.lock = none ∧ s.failed = [] := by
  have i := inv_steps raises hr chunks s h
  obtain ⟨hq, hi⟩ := stuck_idle raises hn chunks s i hs
  refine ⟨?_, ?_, ?_, i.failed⟩
  · have := i.account
    rw [hq] at this
    have e : ∑ w, (s.pc w).chunk = 0 := Finset.sum_eq_zero fun w _ => by rw [hi w]; rfl
    rw [e] at this
    simpa using this
  · intro k
    cases hb : s.busy k with
    | false => rfl
    | true =>
      obtain ⟨w, hw⟩ := (i.busy k).1 hb
      rw [hi w] at hw
      exact absurd hw (by simp [Pc.gpu])
  · cases hl : s.lock with
    | none => rfl
    | some w =>
      have := (i.lock w).1 hl
      rw [hi w] at this
      exact absurd this (by simp [Pc.locked])

/-- From every reachable state some execution reaches the end, so the hypotheses of
`gpu_complete_partial` can be met. -/
theorem gpu_can_end (raises : Nat → Bool) (s : St n) :
    ∃ t, Steps raises s t ∧ ∀ u, ¬ Step raises t u := by
  induction hr : s.rank using Nat.strong_induction_on generalizing s with
  | _ r ih =>
    by_cases h : ∃ t, Step raises s t
    · obtain ⟨t, ht⟩ := h
      obtain ⟨u, hu, hend⟩ := ih t.rank (hr ▸ step_rank raises s t ht) t rfl
      refine ⟨u, ?_, hend⟩
      clear hend
      induction hu with
      | refl => exact .tail _ _ _ (.refl _) ht
      | tail a b _ hab ih' => exact .tail _ _ _ ih' hab
    · exact ⟨s, .refl s, fun u hu => h ⟨u, hu⟩⟩

/-! ### Exceptions -/

/-- The full statement is false: a reconstruction that raises never gives its GPU back.  With one
GPU and two chunks of which the first raises, the second one finds no free GPU and fails with an
unbound variable, although it would have been processed. -/
theorem gpu_leaks : ∃ s : St 1, Steps (fun c => c == 0) (init 1 [0, 1]) s ∧ s.queue = [] ∧
    (∀ w, s.pc w = .idle) ∧ s.busy 0 = true ∧ s.failed = [1, 0] ∧ s.done = [] := by
  let r : Nat → Bool := fun c => c == 0
  have s1 := Step.take (raises := r) (init 1 [0, 1]) 0 0 [1] rfl rfl
  have s2 := Step.acquire (raises := r) _ 0 0 (by simp) rfl |> fun h => Steps.tail _ _ _
    (Steps.tail _ _ _ (Steps.refl _) s1) h
  have s3 := Step.look (raises := r) _ 0 0 0 (by simp) (by decide) rfl |> Steps.tail _ _ _ s2
  have s4 := Step.mark (raises := r) _ 0 0 0 (by simp) |> Steps.tail _ _ _ s3
  have s5 := Step.release (raises := r) _ 0 0 0 (by simp) |> Steps.tail _ _ _ s4
  have s6 := Step.fail (raises := r) _ 0 0 0 (by simp) rfl |> Steps.tail _ _ _ s5
  have s7 := Step.take (raises := r) _ 0 1 [] (by simp) rfl |> Steps.tail _ _ _ s6
  have s8 := Step.acquire (raises := r) _ 0 1 (by simp) rfl |> Steps.tail _ _ _ s7
  have s9 := Step.skip (raises := r) _ 0 1 0 (by simp) (by decide) (by simp) |> Steps.tail _ _ _ s8
  have s10 := Step.unbound (raises := r) _ 0 1 (by simp) |> Steps.tail _ _ _ s9
  refine ⟨_, s10, rfl, ?_, by simp, rfl, rfl⟩
  intro w
  rw [Subsingleton.elim w 0]
  simp

example : ∃ s : St 2, Steps (fun _ => false) (init 2 [0, 1, 2, 3]) s ∧
    (s.done.map Prod.fst).Perm [0, 1, 2, 3] := by
  obtain ⟨t, h1, h2⟩ := gpu_can_end (fun _ => false) (init 2 [0, 1, 2, 3])
  exact ⟨t, h1, (gpu_complete_partial _ (fun _ => rfl) (by decide) _ t h1 h2).1⟩

example : idsList 10 4 = .ok [(0, 4), (4, 8), (8, 10)] := rfl

end Tomopy.Gpu
