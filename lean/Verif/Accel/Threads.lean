import Verif.Accel.Props
import Mathlib.Tactic.FinCases
import Mathlib.Data.Nat.ModEq

/-! The thread pool of the rotation-based reconstructions: what an iteration computes does not depend
on the schedule if no two workers use the same cache (C83). -/

set_option linter.unusedSectionVars false
set_option linter.unusedSimpArgs false

namespace Tomopy.Accel

variable {K : Type} [Field K] [LinearOrder K] [IsStrictOrderedRing K] {n : Nat}

section Invariant

variable (A : Alg) (D : Dims) (R : Rot K) (data : Nat → Nat → Nat → K) (x : Nat → Img K)
  (c : Fin n → Nat)

/-- Number of workers busy with projection `p`. -/
def busyWith (pc : Fin n → Pc) (p : Nat) : Nat :=
  (Finset.univ.filter fun w => (pc w).task = some p).card

theorem busyWith_update (pc : Fin n → Pc) (w : Fin n) (v : Pc) (p : Nat) :
    busyWith (Function.update pc w v) p + (if (pc w).task = some p then 1 else 0) =
      busyWith pc p + (if v.task = some p then 1 else 0) := by
  unfold busyWith
  rw [Finset.card_filter, Finset.card_filter,
    ← Finset.add_sum_erase _ _ (Finset.mem_univ w), ← Finset.add_sum_erase Finset.univ
      (fun i => if (pc i).task = some p then 1 else 0) (Finset.mem_univ w)]
  have : ∑ i ∈ Finset.univ.erase w,
      (if ((Function.update pc w v) i).task = some p then 1 else 0) =
      ∑ i ∈ Finset.univ.erase w, (if (pc i).task = some p then 1 else 0) := by
    apply Finset.sum_congr rfl
    intro i hi
    rw [Function.update_of_ne (Finset.ne_of_mem_erase hi)]
  rw [this, Function.update_self]
  omega

theorem busyWith_same (pc : Fin n → Pc) (w : Fin n) (v : Pc) (p : Nat)
    (h : (pc w).task = v.task) : busyWith (Function.update pc w v) p = busyWith pc p := by
  have := busyWith_update pc w v p
  rw [h] at this
  omega

/-- The local array of a worker after `s` slices of projection `p`. -/
def LocOk (t : St K n) (w : Fin n) (p s : Nat) : Prop :=
  ∀ s' i, t.loc w s' i = if s' < s then contrib A D R data x p s' i else 0

/-- What a worker knows at each position. -/
def WorkOk (t : St K n) (w : Fin n) : Prop :=
  match t.pc w with
  | .idle => True
  | .start p s => LocOk A D R data x t w p s
  | .rotated p s => LocOk A D R data x t w p s ∧ t.rot (c w) = R.fwd p (x s)
  | .simulated p s => LocOk A D R data x t w p s ∧
      t.rot (c w) = simulate A D (data s p) (R.fwd p (x s))
  | .back p s => LocOk A D R data x t w p s ∧ t.tmp (c w) = contrib A D R data x p s

/-- The invariant of an iteration. -/
structure Inv (t : St K n) : Prop where
  count : ∀ p, t.queue.count p + t.done.count p + busyWith t.pc p = (List.range D.dt).count p
  upd : ∀ s i, t.upd s i =
    if s < D.dy then (t.done.map fun p => contrib A D R data x p s i).sum else 0
  work : ∀ w, WorkOk A D R data x c t w

variable {A D R data x c}

theorem inv_init (rot tmp : Nat → Img K) : Inv A D R data x c (initSt n D rot tmp) where
  count p := by simp [initSt, busyWith, Pc.task]
  upd s i := by simp [initSt]
  work w := by simp [WorkOk, initSt]

theorem workOk_frame {t u : St K n} {w : Fin n} (hpc : u.pc w = t.pc w)
    (hloc : u.loc w = t.loc w) (hrot : u.rot (c w) = t.rot (c w)) (htmp : u.tmp (c w) = t.tmp (c w))
    (h : WorkOk A D R data x c t w) : WorkOk A D R data x c u w := by
  unfold WorkOk LocOk at *
  rw [hpc, hloc, hrot, htmp]
  exact h

theorem inv_step (hc : Function.Injective c) {t u : St K n} (hi : Inv A D R data x c t)
    (hs : Step A D R data x c t u) : Inv A D R data x c u := by
  obtain ⟨hcount, hupd, hwork⟩ := hi
  cases hs with
  | take w p hpc hp =>
    refine ⟨?_, hupd, ?_⟩
    · intro q
      have h1 := busyWith_update t.pc w (.start p 0) q
      have h2 := hcount q
      rw [hpc] at h1
      simp only [Pc.task, Option.some.injEq, reduceCtorEq, if_false] at h1
      have h3 : (t.queue.erase p).count q + (if p = q then 1 else 0) = t.queue.count q := by
        by_cases hq : p = q
        · subst hq
          rw [List.count_erase_self, if_pos rfl]
          have := List.count_pos_iff.2 hp
          omega
        · rw [List.count_erase_of_ne (Ne.symm hq), if_neg hq]
          rfl
      dsimp only
      omega
    · intro v
      by_cases hv : v = w
      · subst hv
        simp [WorkOk, LocOk]
      · refine workOk_frame (t := t) ?_ ?_ rfl rfl (hwork v)
        · exact Function.update_of_ne hv ..
        · exact Function.update_of_ne hv ..
  | rotate w p s hpc hs =>
    refine ⟨?_, hupd, ?_⟩
    · intro q
      have h1 := busyWith_same t.pc w (.rotated p s) q (by rw [hpc]; rfl)
      have h2 := hcount q
      dsimp only
      omega
    · intro v
      by_cases hv : v = w
      · subst hv
        have h3 := hwork v
        unfold WorkOk at h3
        rw [hpc] at h3
        simp only [WorkOk, Function.update_self]
        exact ⟨h3, trivial⟩
      · refine workOk_frame (t := t) ?_ rfl ?_ rfl (hwork v)
        · exact Function.update_of_ne hv ..
        · exact Function.update_of_ne (fun h => hv (hc h)) ..
  | simulate w p s hpc =>
    refine ⟨?_, hupd, ?_⟩
    · intro q
      have h1 := busyWith_same t.pc w (.simulated p s) q (by rw [hpc]; rfl)
      have h2 := hcount q
      dsimp only
      omega
    · intro v
      by_cases hv : v = w
      · subst hv
        have h3 := hwork v
        unfold WorkOk at h3
        rw [hpc] at h3
        simp only [WorkOk, Function.update_self]
        exact ⟨h3.1, by rw [h3.2]⟩
      · refine workOk_frame (t := t) ?_ rfl ?_ rfl (hwork v)
        · exact Function.update_of_ne hv ..
        · exact Function.update_of_ne (fun h => hv (hc h)) ..
  | back w p s hpc =>
    refine ⟨?_, hupd, ?_⟩
    · intro q
      have h1 := busyWith_same t.pc w (.back p s) q (by rw [hpc]; rfl)
      have h2 := hcount q
      dsimp only
      omega
    · intro v
      by_cases hv : v = w
      · subst hv
        have h3 := hwork v
        unfold WorkOk at h3
        rw [hpc] at h3
        simp only [WorkOk, Function.update_self]
        exact ⟨h3.1, by rw [h3.2]; rfl⟩
      · refine workOk_frame (t := t) ?_ rfl rfl ?_ (hwork v)
        · exact Function.update_of_ne hv ..
        · exact Function.update_of_ne (fun h => hv (hc h)) ..
  | add w p s hpc =>
    refine ⟨?_, hupd, ?_⟩
    · intro q
      have h1 := busyWith_same t.pc w (.start p (s + 1)) q (by rw [hpc]; rfl)
      have h2 := hcount q
      dsimp only
      omega
    · intro v
      by_cases hv : v = w
      · subst hv
        have h3 := hwork v
        unfold WorkOk at h3
        rw [hpc] at h3
        simp only [WorkOk, Function.update_self]
        intro s' i
        dsimp only
        rw [Function.update_self]
        by_cases hs : s' = s
        · subst hs
          rw [Function.update_self, h3.1, if_neg (lt_irrefl _), if_pos (by omega), h3.2, zero_add]
        · rw [Function.update_of_ne hs, h3.1]
          have : s' < s ↔ s' < s + 1 := by omega
          simp only [this]
      · refine workOk_frame (t := t) ?_ ?_ rfl rfl (hwork v)
        · exact Function.update_of_ne hv ..
        · exact Function.update_of_ne hv ..
  | commit w p s hpc hs =>
    have h3 := hwork w
    unfold WorkOk at h3
    rw [hpc] at h3
    refine ⟨?_, ?_, ?_⟩
    · intro q
      have h1 := busyWith_update t.pc w .idle q
      rw [hpc] at h1
      simp only [Pc.task, Option.some.injEq, reduceCtorEq, if_false] at h1
      have h2 := hcount q
      dsimp only
      rw [List.count_cons]
      simp only [beq_iff_eq]
      omega
    · intro s' i
      dsimp only
      by_cases h : s' < D.dy
      · rw [if_pos h, if_pos h, hupd, if_pos h, h3, if_pos (by omega), List.map_cons, List.sum_cons,
          add_comm]
      · rw [if_neg h, if_neg h, hupd, if_neg h]
    · intro v
      by_cases hv : v = w
      · subst hv
        simp [WorkOk]
      · refine workOk_frame (t := t) ?_ rfl rfl rfl (hwork v)
        exact Function.update_of_ne hv ..

theorem inv_steps (hc : Function.Injective c) {t u : St K n} (hi : Inv A D R data x c t)
    (hs : Steps A D R data x c t u) : Inv A D R data x c u := by
  induction hs with
  | refl => exact hi
  | tail _ h ih => exact inv_step hc ih h

end Invariant

/-! ### The result of an iteration -/

omit [LinearOrder K] [IsStrictOrderedRing K] in
theorem list_sum_range (f : Nat → K) (k : Nat) :
    ((List.range k).map f).sum = ∑ p ∈ Finset.range k, f p := by
  induction k with
  | zero => simp
  | succ k ih => rw [List.range_succ, List.map_append, List.sum_append, ih,
      Finset.sum_range_succ]; simp

/-- For every number of workers, every order in which tasks are handed out and every interleaving,
if no two workers share a cache, then when the pool has finished the shared array is the sum of the
contributions of all projections, and the new image is that of the sequential iteration. -/
theorem accel_schedule_partial (A : Alg) (D : Dims) (R : Rot K) (data : Nat → Nat → Nat → K)
    (x : Nat → Img K) (c : Fin n → Nat) (hc : Function.Injective c) (rot tmp : Nat → Img K)
    (t : St K n) (hs : Steps A D R data x c (initSt n D rot tmp) t) (hf : Finished t) :
    (∀ s < D.dy, ∀ i, t.upd s i = ∑ p ∈ Finset.range D.dt, contrib A D R data x p s i) ∧
      (∀ s < D.dy, ∀ i, apply A D R t.upd x s i = iter A D R data x s i) := by
  obtain ⟨hcount, hupd, -⟩ := inv_steps hc (inv_init rot tmp) hs
  have hperm : t.done.Perm (List.range D.dt) := by
    rw [List.perm_iff_count]
    intro p
    have h := hcount p
    have hb : busyWith t.pc p = 0 := by
      unfold busyWith
      rw [Finset.card_eq_zero, Finset.filter_eq_empty_iff]
      intro w _
      rw [hf.2 w]
      simp [Pc.task]
    rw [hf.1, hb] at h
    simpa using h
  have key : ∀ s < D.dy, ∀ i,
      t.upd s i = ((List.range D.dt).map fun p => contrib A D R data x p s i).sum := by
    intro s hs i
    rw [hupd, if_pos hs]
    exact (hperm.map _).sum_eq
  refine ⟨?_, ?_⟩
  · intro s hs i
    rw [key s hs i, list_sum_range]
  · intro s hs i
    unfold iter apply
    rw [key s hs i]

/-! ### Every execution ends -/

/-- Steps a worker still has to do for its task. -/
def Pc.left (dy : Nat) : Pc → Nat
  | .idle => 0
  | .start _ s => 4 * (dy - s) + 1
  | .rotated _ s => 4 * (dy - s) + 0
  | .simulated _ s => 4 * (dy - s) - 1
  | .back _ s => 4 * (dy - s) - 2

theorem left_idle (dy : Nat) : Pc.left dy .idle = 0 := rfl
theorem left_start (dy p s : Nat) : Pc.left dy (.start p s) = 4 * (dy - s) + 1 := rfl
theorem left_rotated (dy p s : Nat) : Pc.left dy (.rotated p s) = 4 * (dy - s) + 0 := rfl
theorem left_simulated (dy p s : Nat) : Pc.left dy (.simulated p s) = 4 * (dy - s) - 1 := rfl
theorem left_back (dy p s : Nat) : Pc.left dy (.back p s) = 4 * (dy - s) - 2 := rfl

/-- Steps left. -/
def leftSteps (dy : Nat) (t : St K n) : Nat :=
  (4 * dy + 2) * t.queue.length + ∑ w, (t.pc w).left dy

/-- Every worker is within the slices. -/
def Within (dy : Nat) (t : St K n) : Prop :=
  ∀ w, match t.pc w with
    | .rotated _ s => s < dy
    | .simulated _ s => s < dy
    | .back _ s => s < dy
    | _ => True

theorem sum_left_update (dy : Nat) (pc : Fin n → Pc) (w : Fin n) (v : Pc) :
    ∑ i, ((Function.update pc w v) i).left dy + (pc w).left dy =
      ∑ i, (pc i).left dy + v.left dy := by
  rw [← Finset.add_sum_erase _ _ (Finset.mem_univ w), ← Finset.add_sum_erase Finset.univ
      (fun i => (pc i).left dy) (Finset.mem_univ w)]
  have : ∑ i ∈ Finset.univ.erase w, ((Function.update pc w v) i).left dy =
      ∑ i ∈ Finset.univ.erase w, (pc i).left dy := by
    apply Finset.sum_congr rfl
    intro i hi
    rw [Function.update_of_ne (Finset.ne_of_mem_erase hi)]
  rw [this, Function.update_self]
  omega

variable {A : Alg} {D : Dims} {R : Rot K} {data : Nat → Nat → Nat → K} {x : Nat → Img K}
  {c : Fin n → Nat}

theorem within_step {t u : St K n} (hw : Within D.dy t) (hs : Step A D R data x c t u) :
    Within D.dy u := by
  intro v
  cases hs with
  | take w p hpc hp =>
    dsimp only
    by_cases hv : v = w
    · subst hv; simp
    · rw [Function.update_of_ne hv]; exact hw v
  | rotate w p s hpc h =>
    dsimp only
    by_cases hv : v = w
    · subst hv; simpa using h
    · rw [Function.update_of_ne hv]; exact hw v
  | simulate w p s hpc =>
    dsimp only
    by_cases hv : v = w
    · subst hv
      have := hw v
      rw [hpc] at this
      simpa using this
    · rw [Function.update_of_ne hv]; exact hw v
  | back w p s hpc =>
    dsimp only
    by_cases hv : v = w
    · subst hv
      have := hw v
      rw [hpc] at this
      simpa using this
    · rw [Function.update_of_ne hv]; exact hw v
  | add w p s hpc =>
    dsimp only
    by_cases hv : v = w
    · subst hv; simp
    · rw [Function.update_of_ne hv]; exact hw v
  | commit w p s hpc h =>
    dsimp only
    by_cases hv : v = w
    · subst hv; simp
    · rw [Function.update_of_ne hv]; exact hw v

theorem step_left {t u : St K n} (hw : Within D.dy t) (hs : Step A D R data x c t u) :
    leftSteps D.dy u < leftSteps D.dy t := by
  unfold leftSteps
  cases hs with
  | take w p hpc hp =>
    have h := sum_left_update D.dy t.pc w (.start p 0)
    rw [hpc] at h
    simp only [left_idle, left_start, left_rotated] at h
    have hl := List.length_erase_of_mem hp
    have hpos := List.length_pos_of_mem hp
    dsimp only
    rw [hl]
    obtain ⟨k, hk⟩ : ∃ k, t.queue.length = k + 1 := ⟨t.queue.length - 1, by omega⟩
    rw [hk, Nat.add_sub_cancel, Nat.mul_add]
    omega
  | rotate w p s hpc hlt =>
    have h := sum_left_update D.dy t.pc w (.rotated p s)
    rw [hpc] at h
    simp only [left_idle, left_start, left_rotated] at h
    dsimp only
    omega
  | simulate w p s hpc =>
    have h := sum_left_update D.dy t.pc w (.simulated p s)
    have hlt := hw w
    rw [hpc] at h hlt
    have hlt' : s < D.dy := hlt
    simp only [left_start, left_rotated, left_simulated, left_back] at h
    dsimp only
    omega
  | back w p s hpc =>
    have h := sum_left_update D.dy t.pc w (.back p s)
    have hlt := hw w
    rw [hpc] at h hlt
    have hlt' : s < D.dy := hlt
    simp only [left_start, left_rotated, left_simulated, left_back] at h
    dsimp only
    omega
  | add w p s hpc =>
    have h := sum_left_update D.dy t.pc w (.start p (s + 1))
    have hlt := hw w
    rw [hpc] at h hlt
    have hlt' : s < D.dy := hlt
    simp only [left_start, left_rotated, left_simulated, left_back] at h
    dsimp only
    omega
  | commit w p s hpc hle =>
    have h := sum_left_update D.dy t.pc w .idle
    rw [hpc] at h
    simp only [left_idle, left_start, left_rotated] at h
    dsimp only
    omega

theorem within_steps {t u : St K n} (hw : Within D.dy t) (hs : Steps A D R data x c t u) :
    Within D.dy u := by
  induction hs with
  | refl => exact hw
  | tail _ h ih => exact within_step ih h

/-- Executions with their number of steps (specification). -/
inductive StepsN (A : Alg) (D : Dims) (R : Rot K) (data : Nat → Nat → Nat → K) (x : Nat → Img K)
    (c : Fin n → Nat) : Nat → St K n → St K n → Prop
  | refl (t) : StepsN A D R data x c 0 t t
  | tail {k t u v} : StepsN A D R data x c k t u → Step A D R data x c u v →
      StepsN A D R data x c (k + 1) t v

theorem StepsN.steps {k : Nat} {t u : St K n} (h : StepsN A D R data x c k t u) :
    Steps A D R data x c t u := by
  induction h with
  | refl => exact .refl _
  | tail _ h ih => exact .tail ih h

/-- Every execution ends after at most `dt * (4 * dy + 2)` steps, and one that cannot go on (with
at least one worker) has finished. -/
theorem accel_ends (rot tmp : Nat → Img K) (t : St K n) (k : Nat)
    (h : StepsN A D R data x c k (initSt n D rot tmp) t) :
    k ≤ (4 * D.dy + 2) * D.dt ∧
      (0 < n → (∀ u, ¬ Step A D R data x c t u) → Finished t) := by
  have hw0 : Within D.dy (initSt n D rot tmp) := by intro w; simp [initSt]
  refine ⟨?_, ?_⟩
  · have key : ∀ (k : Nat) (t : St K n), StepsN A D R data x c k (initSt n D rot tmp) t →
        leftSteps D.dy t + k ≤ (4 * D.dy + 2) * D.dt := by
      intro k t h
      generalize ht0 : initSt n D rot tmp = t0 at h
      induction h with
      | refl =>
        subst ht0
        simp [leftSteps, initSt, Pc.left]
      | tail hs hst ih =>
        subst ht0
        have := step_left (within_steps hw0 hs.steps) hst
        have := ih rfl
        omega
    have := key k t h
    omega
  · intro hn hstuck
    have hw := within_steps hw0 h.steps
    have hidle : ∀ w, t.pc w = .idle := by
      intro w
      cases hpc : t.pc w with
      | idle => rfl
      | start p s =>
        exfalso
        by_cases hlt : s < D.dy
        · exact hstuck _ (.rotate t w p s hpc hlt)
        · exact hstuck _ (.commit t w p s hpc (by omega))
      | rotated p s => exact (hstuck _ (.simulate t w p s hpc)).elim
      | simulated p s => exact (hstuck _ (.back t w p s hpc)).elim
      | back p s => exact (hstuck _ (.add t w p s hpc)).elim
    refine ⟨?_, hidle⟩
    cases hq : t.queue with
    | nil => rfl
    | cons p q =>
      exact (hstuck _ (.take t ⟨0, hn⟩ p (hidle _) (by rw [hq]; exact List.mem_cons_self ..))).elim

/-! ### Caches -/

/-- Workers with consecutive identifiers use different caches. -/
theorem cache_distinct (n k : Nat) : Function.Injective fun w : Fin n => (k + w.1) % n := by
  intro a b h
  have ha := a.2
  have hb := b.2
  ext
  have h' : (k + a.1) % n = (k + b.1) % n := h
  have h2 : (a.1 : Nat) % n = b.1 % n := Nat.ModEq.add_left_cancel' k h'
  rwa [Nat.mod_eq_of_lt ha, Nat.mod_eq_of_lt hb] at h2

/-- Workers whose identifiers differ by the size of the pool share a cache. -/
theorem cache_shared (n k : Nat) : (k + n) % n = k % n := Nat.add_mod_right ..

/-- The rotation that does nothing. -/
def idRot : Rot ℚ := ⟨fun _ im => im, fun _ im => im, fun _ _ => true⟩

/-- Data of two projections of a single pixel: 3 and 5. -/
def raceData : Nat → Nat → Nat → ℚ := fun _ p _ => if p = 0 then 3 else 5

/-- With two workers that share a cache there is an execution of one iteration that ends with a
different array: it should be 8, and is 10. -/
theorem accel_race : ∃ t : St ℚ 2,
    Steps .sirt ⟨1, 2, 1, 1, 1⟩ idRot raceData (fun _ _ => 1) (fun _ : Fin 2 => 0)
      (initSt 2 ⟨1, 2, 1, 1, 1⟩ (fun _ _ => 0) fun _ _ => 0) t ∧ Finished t ∧ t.upd 0 0 = 10 ∧
    (∑ p ∈ Finset.range 2, contrib .sirt ⟨1, 2, 1, 1, 1⟩ idRot raceData (fun _ _ => 1) p 0 0)
      = 8 := by
  have h := (.tail (.tail (.tail (.tail (.tail (.tail (.tail (.tail (.tail (.tail (.tail (.tail
      (.refl _) (.take _ 0 0 rfl (by decide))) (.take _ 1 1 rfl (by decide)))
      (.rotate _ 0 0 0 rfl (by decide))) (.simulate _ 0 0 0 rfl))
      (.rotate _ 1 1 0 rfl (by decide))) (.simulate _ 1 1 0 rfl))
      (.back _ 0 0 0 rfl)) (.add _ 0 0 0 rfl)) (.back _ 1 1 0 rfl)) (.add _ 1 1 0 rfl))
      (.commit _ 0 0 1 rfl (by decide))) (.commit _ 1 1 1 rfl (by decide)) :
    Steps .sirt ⟨1, 2, 1, 1, 1⟩ idRot raceData (fun _ _ => 1) (fun _ : Fin 2 => 0)
      (initSt 2 ⟨1, 2, 1, 1, 1⟩ (fun _ _ => 0) fun _ _ => 0) _)
  refine ⟨_, h, ⟨rfl, ?_⟩, ?_, ?_⟩
  · intro w
    fin_cases w <;> rfl
  · decide +kernel
  · decide +kernel

end Tomopy.Accel
