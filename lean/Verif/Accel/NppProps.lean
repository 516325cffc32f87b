import Verif.Accel.NppModel
import Mathlib.Algebra.BigOperators.Group.Finset.Basic
import Mathlib.Data.Fintype.BigOperators
import Mathlib.Algebra.Order.BigOperators.Group.Finset
import Mathlib.Algebra.Order.Group.Int

/-! C131: rotations of several threads and the one stream of NPP. -/
set_option linter.unusedSectionVars false

namespace Tomopy.Npp

variable {n : Nat}

/-- Specification: the thread has taken the counter from 0 to 1 and not given it back. -/
def Pc.holds : Pc → Bool
  | .set => true
  | .verify d => d
  | .launch d => d
  | .leave d => d
  | _ => false

/-- Specification: the thread holds and has set the stream. -/
def Pc.owns : Pc → Bool
  | .verify d => d
  | .launch d => d
  | .leave d => d
  | _ => false

/-- What a thread contributes to the counter. -/
def Pc.weight : Pc → Int
  | .undo => 1
  | p => if p.holds then 1 else 0

theorem weight_nonneg (p : Pc) : 0 ≤ p.weight := by
  unfold Pc.weight
  split
  · decide
  · split <;> decide

theorem weight_holds {p : Pc} (h : p.holds = true) : p.weight = 1 := by
  cases p <;> simp_all [Pc.weight, Pc.holds]

theorem sum_update (f : Fin n → Pc) (w : Fin n) (p : Pc) :
    ∑ i, (Function.update f w p i).weight = (∑ i, (f i).weight) - (f w).weight + p.weight := by
  rw [← Finset.add_sum_erase _ _ (Finset.mem_univ w),
    ← Finset.add_sum_erase Finset.univ (fun i => (f i).weight) (Finset.mem_univ w),
    Function.update_self]
  have : ∑ i ∈ Finset.univ.erase w, (Function.update f w p i).weight
      = ∑ i ∈ Finset.univ.erase w, (f i).weight :=
    Finset.sum_congr rfl fun i hi => by rw [Function.update_of_ne (Finset.ne_of_mem_erase hi)]
  rw [this]
  omega

structure Inv (str : Fin n → Nat) (s : St n) : Prop where
  /-- the counter counts -/
  count : s.count = ∑ i, (s.pc i).weight
  /-- at most one thread holds -/
  one : ∀ i j, (s.pc i).holds = true → (s.pc j).holds = true → i = j
  /-- a thread that has set the stream finds it set -/
  own : ∀ i, (s.pc i).owns = true → s.npp = str i
  /-- its rotations went to its stream -/
  log : ∀ e ∈ s.log, e.2.1 = true → e.2.2 = str e.1

theorem weight_le (f : Fin n → Pc) (w : Fin n) : (f w).weight ≤ ∑ i, (f i).weight :=
  Finset.single_le_sum (f := fun i => (f i).weight) (fun _ _ => weight_nonneg _) (Finset.mem_univ w)

/-- If the counter is zero nobody holds. -/
theorem none_holds {str : Fin n → Nat} {s : St n} (h : Inv str s) (h0 : s.count = 0) (i : Fin n) :
    (s.pc i).holds = false := by
  by_contra hc
  have h1 := weight_holds (Bool.eq_true_of_not_eq_false hc)
  have h2 := weight_le s.pc i
  rw [← h.count] at h2
  omega

theorem inv_init (str : Fin n → Nat) (k : Nat) : Inv str (init n k) where
  count := by simp [init, Pc.weight, Pc.holds]
  one := by simp [init, Pc.holds]
  own := by simp [init, Pc.owns]
  log := by simp [init]

theorem owns_holds {p : Pc} (h : p.owns = true) : p.holds = true := by
  cases p <;> simp_all [Pc.owns, Pc.holds]

/-- Only the position of `w` changes, to one that neither holds nor owns more than before. -/
theorem inv_move {str : Fin n → Nat} {s : St n} (h : Inv str s) (w : Fin n) (p : Pc) (c : Int)
    (hc : c = s.count - (s.pc w).weight + p.weight) (hh : p.holds = true → (s.pc w).holds = true)
    (ho : p.owns = true → (s.pc w).owns = true) (l : List (Fin n × Bool × Nat))
    (hl : ∀ e ∈ l, e.2.1 = true → e.2.2 = str e.1) :
    Inv str ⟨c, s.npp, Function.update s.pc w p, l⟩ where
  count := by
    simp only
    rw [sum_update, ← h.count, hc]
  one := by
    have key : ∀ i, (Function.update s.pc w p i).holds = true → (s.pc i).holds = true := by
      intro i hi
      by_cases e : i = w
      · subst e; rw [Function.update_self] at hi; exact hh hi
      · rwa [Function.update_of_ne e] at hi
    exact fun i j hi hj => h.one i j (key i hi) (key j hj)
  own := by
    intro i hi
    by_cases e : i = w
    · subst e
      change (Function.update s.pc i p i).owns = true at hi
      rw [Function.update_self] at hi
      exact h.own i (ho hi)
    · change (Function.update s.pc w p i).owns = true at hi
      rw [Function.update_of_ne e] at hi
      exact h.own i hi
  log := hl

theorem inv_step {str : Fin n → Nat} {s : St n} (h : Inv str s) (w : Fin n) :
    Inv str (step str s w) := by
  unfold step
  cases hp : s.pc w with
  | idle =>
    simp only
    refine inv_move h w _ _ ?_ (by simp [Pc.holds])
      (by simp [Pc.owns]) _ h.log
      <;> simp [hp, Pc.weight, Pc.holds]
  | look =>
    simp only
    split <;> refine inv_move h w _ _ ?_ (by simp [Pc.holds])
      (by simp [Pc.owns]) _ h.log
      <;> simp [hp, Pc.weight, Pc.holds]
  | load =>
    simp only
    split <;> refine inv_move h w _ _ ?_ (by simp [Pc.holds])
      (by simp [Pc.owns]) _ h.log
      <;> simp [hp, Pc.weight, Pc.holds]
  | inc =>
    simp only
    split
    · rename_i h1
      have h0 : s.count = 0 := by omega
      refine ⟨?_, ?_, ?_, h.log⟩
      · simp only
        rw [sum_update, ← h.count, hp]
        simp [Pc.weight, Pc.holds]
      · intro i j hi hj
        have key : ∀ i, (Function.update s.pc w .set i).holds = true → i = w := by
          intro i hi
          by_contra e
          rw [Function.update_of_ne e, none_holds h h0 i] at hi
          cases hi
        rw [key i hi, key j hj]
      · intro i hi
        by_cases e : i = w
        · subst e
          change (Function.update s.pc i Pc.set i).owns = true at hi
          rw [Function.update_self] at hi; cases hi
        · change (Function.update s.pc w Pc.set i).owns = true at hi
          rw [Function.update_of_ne e] at hi
          exact h.own i hi
    · refine inv_move h w _ _ ?_ (by simp [Pc.holds])
        (by simp [Pc.owns]) _ h.log
      <;> simp [hp, Pc.weight, Pc.holds]
  | undo =>
    simp only
    refine inv_move h w _ _ ?_ (by simp [Pc.holds])
      (by simp [Pc.owns]) _ h.log
      <;> simp [hp, Pc.weight, Pc.holds]
  | set =>
    simp only
    have hw : (s.pc w).holds = true := by rw [hp]; rfl
    have key : ∀ i, (Function.update s.pc w (.verify true) i).holds = true → i = w := by
      intro i hi
      by_contra e
      rw [Function.update_of_ne e] at hi
      exact e (h.one i w hi hw)
    refine ⟨?_, ?_, ?_, h.log⟩
    · simp only
      rw [sum_update, ← h.count, hp]
      simp [Pc.weight, Pc.holds]
    · intro i j hi hj
      rw [key i hi, key j hj]
    · intro i hi
      rw [key i (owns_holds hi)]
  | verify d =>
    simp only
    split
    · rename_i hne
      have hd : d = false := by
        cases d with
        | false => rfl
        | true => exact absurd (h.own w (by rw [hp]; rfl)) hne
      subst hd
      refine inv_move h w _ _ ?_ (by simp [Pc.holds])
        (by simp [Pc.owns]) _ h.log
      <;> simp [hp, Pc.weight, Pc.holds]
    · refine inv_move h w _ _ (by cases d <;> simp [hp, Pc.weight, Pc.holds]) (by simp [hp, Pc.holds])
        (by simp [hp, Pc.owns]) _ h.log
  | launch d =>
    simp only
    refine inv_move h w _ _ (by cases d <;> simp [hp, Pc.weight, Pc.holds]) (by simp [hp, Pc.holds])
        (by simp [hp, Pc.owns]) _ ?_
    intro e he hd
    rcases List.mem_cons.1 he with rfl | he
    · exact h.own w (by rw [hp]; exact hd)
    · exact h.log e he hd
  | leave d =>
    simp only
    refine inv_move h w _ _ ?_ (by simp [Pc.holds]) (by simp [Pc.owns]) _ h.log
    rw [hp]
    cases d <;> simp [Pc.weight, Pc.holds]
  | thrown => exact h

theorem inv_exec (str : Fin n → Nat) (sched : List (Fin n)) :
    ∀ s, Inv str s → Inv str (exec str s sched) := by
  induction sched with
  | nil => exact fun s h => h
  | cons w ws ih => exact fun s h => ih _ (inv_step h w)

/-- **C131 (partial)** For every number of threads and every interleaving: at most one thread at a
time has taken the counter from 0 to 1; while it has, and has set its stream, NPP uses that stream,
so its rotations go there and it does not throw. -/
theorem npp_holder_partial (str : Fin n → Nat) (k : Nat) (sched : List (Fin n)) :
    (∀ i j, ((exec str (init n k) sched).pc i).holds = true →
      ((exec str (init n k) sched).pc j).holds = true → i = j) ∧
    (∀ i, ((exec str (init n k) sched).pc i).owns = true →
      (exec str (init n k) sched).npp = str i) ∧
    ∀ e ∈ (exec str (init n k) sched).log, e.2.1 = true → e.2.2 = str e.1 :=
  have h := inv_exec str sched _ (inv_init str k)
  ⟨h.one, h.own, h.log⟩

/-- **C131 (partial)** The counter is zero again whenever no thread is between taking it and giving it
back, also after exceptions. -/
theorem npp_released (str : Fin n → Nat) (k : Nat) (sched : List (Fin n))
    (h : ∀ i, (exec str (init n k) sched).pc i = .idle ∨ (exec str (init n k) sched).pc i = .thrown) :
    (exec str (init n k) sched).count = 0 := by
  rw [(inv_exec str sched _ (inv_init str k)).count]
  refine Finset.sum_eq_zero fun i _ => ?_
  rcases h i with h | h <;> rw [h] <;> rfl

/-- Specification: behind a comparison with the stream of NPP that was equal. -/
def Pc.past : Pc → Bool
  | .load | .verify _ | .launch _ | .leave _ => true
  | _ => false

theorem same_step {c : Nat} {s : St n}
    (h : (∀ i, (s.pc i).past = true → s.npp = c) ∧ (∀ i, s.pc i ≠ .thrown) ∧ ∀ e ∈ s.log, e.2.2 = c)
    (w : Fin n) :
    (∀ i, ((step (fun _ => c) s w).pc i).past = true → (step (fun _ => c) s w).npp = c) ∧
    (∀ i, (step (fun _ => c) s w).pc i ≠ .thrown) ∧ ∀ e ∈ (step (fun _ => c) s w).log, e.2.2 = c := by
  obtain ⟨h1, h2, h3⟩ := h
  have up : ∀ (p : Pc) (k : Nat), (p.past = true → k = c) → (s.npp = c → k = c) → p ≠ .thrown →
      (∀ i, (Function.update s.pc w p i).past = true → k = c) ∧
      ∀ i, Function.update s.pc w p i ≠ .thrown := by
    intro p k hp hk ht
    constructor
    · intro i hi
      by_cases e : i = w
      · subst e; rw [Function.update_self] at hi; exact hp hi
      · rw [Function.update_of_ne e] at hi; exact hk (h1 i hi)
    · intro i
      by_cases e : i = w
      · subst e; rw [Function.update_self]; exact ht
      · rw [Function.update_of_ne e]; exact h2 i
  unfold step
  cases hp : s.pc w with
  | idle => have := up .look s.npp (by simp [Pc.past]) id (by simp); exact ⟨this.1, this.2, h3⟩
  | look =>
    simp only
    split
    · have := up .inc s.npp (by simp [Pc.past]) id (by simp); exact ⟨this.1, this.2, h3⟩
    · rename_i e
      have := up .load s.npp (fun _ => not_not.1 e) id (by simp); exact ⟨this.1, this.2, h3⟩
  | load =>
    have hc := h1 w (by rw [hp]; rfl)
    simp only
    split
    · have := up .inc s.npp (by simp [Pc.past]) id (by simp); exact ⟨this.1, this.2, h3⟩
    · have := up (.verify false) s.npp (fun _ => hc) id (by simp); exact ⟨this.1, this.2, h3⟩
  | inc =>
    simp only
    split
    · have := up .set s.npp (by simp [Pc.past]) id (by simp); exact ⟨this.1, this.2, h3⟩
    · have := up .undo s.npp (by simp [Pc.past]) id (by simp); exact ⟨this.1, this.2, h3⟩
  | undo => have := up .look s.npp (by simp [Pc.past]) id (by simp); exact ⟨this.1, this.2, h3⟩
  | set => have := up (.verify true) c (fun _ => rfl) (fun _ => rfl) (by simp)
           exact ⟨this.1, this.2, h3⟩
  | verify d =>
    have hc := h1 w (by rw [hp]; rfl)
    simp only [hc, ne_eq, not_true_eq_false, if_false]
    have := up (.launch d) c (fun _ => rfl) (fun _ => rfl) (by simp)
    exact ⟨fun _ _ => trivial, this.2, h3⟩
  | launch d =>
    have hc := h1 w (by rw [hp]; rfl)
    have := up (.leave d) s.npp (fun _ => hc) id (by simp)
    refine ⟨this.1, this.2, ?_⟩
    intro e he
    rcases List.mem_cons.1 he with rfl | he
    · exact hc
    · exact h3 e he
  | leave d => have := up .idle s.npp (by simp [Pc.past]) id (by simp); exact ⟨this.1, this.2, h3⟩
  | thrown => exact ⟨h1, h2, h3⟩

/-- **C131 (partial)** If all threads use the same stream, every rotation goes to it and nothing is
thrown, for every interleaving and every stream NPP had before. -/
theorem npp_same_stream (c k : Nat) (sched : List (Fin n)) :
    (∀ i, (exec (fun _ => c) (init n k) sched).pc i ≠ .thrown) ∧
    ∀ e ∈ (exec (fun _ => c) (init n k) sched).log, e.2.2 = c := by
  have : ∀ (sched : List (Fin n)) (s : St n), ((∀ i, (s.pc i).past = true → s.npp = c) ∧
      (∀ i, s.pc i ≠ .thrown) ∧ ∀ e ∈ s.log, e.2.2 = c) →
      (∀ i, (exec (fun _ => c) s sched).pc i ≠ .thrown) ∧
      ∀ e ∈ (exec (fun _ => c) s sched).log, e.2.2 = c := by
    intro sched
    induction sched with
    | nil => exact fun s h => h.2
    | cons w ws ih => exact fun s h => ih _ (same_step h w)
  exact this sched _ ⟨by simp [init, Pc.past], by simp [init], by simp [init]⟩

example : (exec (fun _ => 7) (init 2 0) [0, 0, 0, 1, 1, 1, 0, 0, 0, 1, 1, 1, 1, 1]).log =
    [(1, false, 7), (0, true, 7)] := by decide

/-- **C131 (refutation)** Two threads with streams of their own: the second rotation of thread 0
passes the loop while thread 1 is about to set its stream, and goes to the stream of thread 1. -/
theorem npp_wrong_stream : ∃ sched : List (Fin 2),
    (0, false, 8) ∈ (exec (fun w => if w = 0 then 7 else 8) (init 2 0) sched).log := by
  refine ⟨[0, 0, 0, 0, 0, 0, 0,   1, 1, 1,   0, 0, 0, 0,   1,   0], ?_⟩
  decide

/-- **C131 (refutation)** The same with the exception "Wrong stream!". -/
theorem npp_throws : ∃ sched : List (Fin 2),
    (exec (fun w => if w = 0 then 7 else 8) (init 2 0) sched).pc 0 = .thrown := by
  refine ⟨[0, 0, 0, 0, 0, 0, 0,   1, 1, 1,   0, 0, 0,   1,   0], ?_⟩
  decide

/-- **C131 (refutation)** Three threads: a state is reached in which no thread holds the counter, and
from which two threads that want to rotate can take steps for ever without one of them getting on. -/
theorem npp_livelock : ∃ sched round : List (Fin 3),
    let s := exec (fun w => w.val) (init 3 9) sched
    (∀ i, (s.pc i).holds = false) ∧ 1 ∈ round ∧ 2 ∈ round ∧
    (exec (fun w => w.val) s round).pc = s.pc ∧ (exec (fun w => w.val) s round).count = s.count ∧
    (exec (fun w => w.val) s round).npp = s.npp ∧
    (exec (fun w => w.val) s round).log = s.log ∧
    ∀ m, ∀ i, ((exec (fun w => w.val) s (round.take m)).pc i).holds = false := by
  refine ⟨[0, 0, 0, 1, 1, 1, 2, 2, 2, 0, 0, 0, 0], [1, 1, 1, 2, 2, 2], ?_, ?_, ?_, ?_, ?_, ?_, ?_, ?_⟩
  · decide
  · decide
  · decide
  · decide
  · decide
  · decide
  · decide
  · intro m
    by_cases h : m ≤ 6
    · have : ∀ m ≤ 6, ∀ i, ((exec (fun w : Fin 3 => w.val) (exec (fun w => w.val) (init 3 9)
          [0, 0, 0, 1, 1, 1, 2, 2, 2, 0, 0, 0, 0]) ([1, 1, 1, 2, 2, 2].take m)).pc i).holds = false := by
        decide
      exact this m h
    · rw [List.take_of_length_le (by simp; omega)]
      decide

end Tomopy.Npp
