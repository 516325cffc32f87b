import Verif.Wrap.UfoModel
import Verif.Wrap.Props

/-! # When `ufo_fbp` and `ufo_dfi` return (C176) -/

namespace Tomopy.Wrap

variable {S I O : Type} {n : Nat} {sino : Nat → S} {f : S → I} {crop : I → Except PyErr O}

/-- The slices before `i` have been written, each from its own sinogram; no other slice has been touched. -/
def Written (sino : Nat → S) (f : S → I) (crop : I → Except PyErr O) (i : Nat) (sl : Nat → Option O) : Prop :=
  (∀ j < i, ∃ o, crop (f (sino j)) = .ok o ∧ sl j = some o) ∧ ∀ j, i ≤ j → sl j = none

/-- The invariant of all executions. -/
def UfoInv (n : Nat) (sino : Nat → S) (f : S → I) (crop : I → Except PyErr O) (s : UfoSt S I O) : Prop :=
  match s.pc with
  | .next i => i ≤ n ∧ Written sino f crop i s.slices ∧ s.stop = false ∧ s.done = false ∧ s.inQ = [] ∧
      s.pipe = [] ∧ s.outQ = [] ∧ s.free = if i = 0 then 0 else 1
  | .sent i => i < n ∧ Written sino f crop i s.slices ∧ s.stop = false ∧ s.done = false ∧
      ((s.inQ = [sino i] ∧ s.pipe = [] ∧ s.outQ = [] ∧ s.free = 0) ∨
       (s.inQ = [] ∧ s.pipe = [f (sino i)] ∧ s.outQ = [] ∧ s.free = 1) ∨
       (s.inQ = [] ∧ s.pipe = [] ∧ s.outQ = [f (sino i)] ∧ s.free = 1))
  | .got i v => i < n ∧ v = f (sino i) ∧ Written sino f crop i s.slices ∧ s.stop = false ∧ s.done = false ∧
      s.inQ = [] ∧ s.pipe = [] ∧ s.outQ = [] ∧ s.free = 1
  | .stopped => Written sino f crop n s.slices ∧ s.stop = true ∧ s.inQ = [] ∧ s.pipe = [] ∧ s.outQ = []
  | .raised => s.stop = false ∧ s.done = false ∧ s.inQ = [] ∧ s.pipe = [] ∧ s.outQ = [] ∧
      ∃ i < n, Written sino f crop i s.slices ∧ ∃ e, crop (f (sino i)) = .error e

/-- Steps left, at most. -/
def ufoLeft (n : Nat) (s : UfoSt S I O) : Nat :=
  2 * s.inQ.length + s.pipe.length + (if s.done then 0 else 1) +
  match s.pc with
  | .next i => 5 * (n - i) + 1
  | .sent i => 5 * (n - i) - 2
  | .got i _ => 5 * (n - i) - 3
  | .stopped => 0
  | .raised => 0

theorem ufo_inv_step {s s' : UfoSt S I O} (hI : UfoInv n sino f crop s) (h : UfoStep n sino f crop s s') :
    UfoInv n sino f crop s' := by
  obtain ⟨pc, free, inQ, pipe, outQ, stop, done, sl⟩ := s
  cases h with
  | first hn h =>
    cases h
    obtain ⟨-, hw, h1, h2, h3, h4, h5, h6⟩ := hI
    simp only at h1 h2 h3 h4 h5 h6
    subst h1 h2 h3 h4 h5
    exact ⟨hn, hw, rfl, rfl, Or.inl ⟨rfl, rfl, rfl, h6⟩⟩
  | next i k hi h hk =>
    cases h
    obtain ⟨-, hw, h1, h2, h3, h4, h5, h6⟩ := hI
    simp only at h1 h2 h3 h4 h5 h6 hk
    subst h1 h2 h3 h4 h5
    rw [if_neg (Nat.succ_ne_zero i)] at h6
    exact ⟨hi, hw, rfl, rfl, Or.inl ⟨rfl, rfl, rfl, show k = 0 by omega⟩⟩
  | fetch i v rest h ho =>
    cases h
    obtain ⟨hi, hw, h1, h2, h3⟩ := hI
    simp only at h1 h2 h3 ho
    subst ho
    rcases h3 with ⟨_, _, h, _⟩ | ⟨_, _, h, _⟩ | ⟨h4, h5, h6, h7⟩
    · cases h
    · cases h
    · cases h6
      exact ⟨hi, rfl, hw, h1, h2, h4, h5, rfl, h7⟩
  | write i v o h hc =>
    cases h
    obtain ⟨hi, rfl, hw, h1, h2, h3, h4, h5, h6⟩ := hI
    refine ⟨hi, ⟨fun j hj => ?_, fun j hj => ?_⟩, h1, h2, h3, h4, h5, ?_⟩
    · by_cases e : j = i
      · subst e
        exact ⟨o, hc, by simp⟩
      · obtain ⟨o', ho, hs⟩ := hw.1 j (by omega)
        exact ⟨o', ho, (Function.update_of_ne e _ _).trans hs⟩
    · exact (Function.update_of_ne (show j ≠ i by omega) _ _).trans (hw.2 j (by omega))
    · rw [if_neg (Nat.succ_ne_zero i)]
      exact h6
  | fail i v e h hc =>
    cases h
    obtain ⟨hi, rfl, hw, h1, h2, h3, h4, h5, h6⟩ := hI
    exact ⟨h1, h2, h3, h4, h5, i, hi, hw, e, hc⟩
  | stop h =>
    cases h
    obtain ⟨-, hw, h1, h2, h3, h4, h5, h6⟩ := hI
    exact ⟨hw, rfl, h3, h4, h5⟩
  | take x rest hq =>
    simp only at hq
    subst hq
    cases pc with
    | next i => obtain ⟨-, -, -, -, h, -⟩ := hI; cases h
    | got i v => obtain ⟨-, -, -, -, -, h, -⟩ := hI; cases h
    | stopped => obtain ⟨-, -, h, -⟩ := hI; cases h
    | raised => obtain ⟨-, -, h, -⟩ := hI; cases h
    | sent i =>
      obtain ⟨hi, hw, h1, h2, h3⟩ := hI
      simp only at h3
      rcases h3 with ⟨h, h4, h5, h6⟩ | ⟨h, _⟩ | ⟨h, _⟩
      · cases h
        subst h4 h5 h6
        exact ⟨hi, hw, h1, h2, Or.inr (Or.inl ⟨rfl, rfl, rfl, rfl⟩)⟩
      · cases h
      · cases h
  | emit v rest hq =>
    simp only at hq
    subst hq
    cases pc with
    | next i => obtain ⟨-, -, -, -, -, h, -⟩ := hI; cases h
    | got i v => obtain ⟨-, -, -, -, -, -, h, -⟩ := hI; cases h
    | stopped => obtain ⟨-, -, -, h, -⟩ := hI; cases h
    | raised => obtain ⟨-, -, -, h, -⟩ := hI; cases h
    | sent i =>
      obtain ⟨hi, hw, h1, h2, h3⟩ := hI
      simp only at h3
      rcases h3 with ⟨_, h, _⟩ | ⟨h4, h, h5, h6⟩ | ⟨_, h, _⟩
      · cases h
      · cases h
        subst h4 h5 h6
        exact ⟨hi, hw, h1, h2, Or.inr (Or.inr ⟨rfl, rfl, rfl, rfl⟩)⟩
      · cases h
  | finish h hd hi hp =>
    simp only at h
    subst h
    cases pc with
    | next i => obtain ⟨-, -, h, -⟩ := hI; cases h
    | got i v => obtain ⟨-, -, -, h, -⟩ := hI; cases h
    | raised => obtain ⟨h, -⟩ := hI; cases h
    | sent i => obtain ⟨-, -, h, -⟩ := hI; cases h
    | stopped => exact hI

theorem ufo_inv {k : Nat} {s : UfoSt S I O} (h : UfoRun n sino f crop k s) : UfoInv n sino f crop s := by
  induction h with
  | init => exact ⟨Nat.zero_le _, ⟨fun j hj => absurd hj (Nat.not_lt_zero _), fun _ _ => rfl⟩, rfl, rfl, rfl, rfl,
      rfl, rfl⟩
  | step _ hs ih => exact ufo_inv_step ih hs

theorem ufo_left_step {s s' : UfoSt S I O} (hI : UfoInv n sino f crop s) (h : UfoStep n sino f crop s s') :
    ufoLeft n s' + 1 ≤ ufoLeft n s := by
  obtain ⟨pc, free, inQ, pipe, outQ, stop, done, sl⟩ := s
  cases h with
  | first hn h =>
    cases h
    simp only [ufoLeft, List.length_append, List.length_singleton]
    omega
  | next i k hi h hk =>
    cases h
    simp only [ufoLeft, List.length_append, List.length_singleton]
    omega
  | fetch i v rest h ho =>
    cases h
    obtain ⟨hi, -⟩ := hI
    simp only [ufoLeft]
    omega
  | write i v o h hc =>
    cases h
    obtain ⟨hi, -⟩ := hI
    simp only [ufoLeft]
    omega
  | fail i v e h hc =>
    cases h
    obtain ⟨hi, -⟩ := hI
    simp only [ufoLeft]
    omega
  | stop h =>
    cases h
    simp only [ufoLeft]
    omega
  | take x rest hq =>
    simp only at hq
    subst hq
    simp only [ufoLeft, List.length_append, List.length_nil, List.length_cons]
    omega
  | emit v rest hq =>
    simp only at hq
    subst hq
    simp only [ufoLeft, List.length_cons]
    omega
  | finish h hd hi hp =>
    simp only at hd
    subst hd
    simp [ufoLeft]
    omega

/-- **C176** No execution has more than `5 n + 2` steps: the threads end or wait for each other. -/
theorem ufo_bounded {k : Nat} {s : UfoSt S I O} (h : UfoRun n sino f crop k s) : k ≤ 5 * n + 2 := by
  have key : k + ufoLeft n s ≤ 5 * n + 2 := by
    induction h with
    | init =>
      simp [ufoLeft, ufoInit]
      omega
    | step hr hs ih =>
      have := ufo_left_step (ufo_inv hr) hs
      omega
  omega

/-- **C176** If the call returns, every slice has been written, from its own sinogram. -/
theorem ufo_returned_written {k : Nat} {s : UfoSt S I O} (h : UfoRun n sino f crop k s) (hr : s.Returned) :
    ∀ i < n, ∃ o, crop (f (sino i)) = .ok o ∧ s.slices i = some o := by
  obtain ⟨pc, free, inQ, pipe, outQ, stop, done, sl⟩ := s
  have hI := ufo_inv h
  obtain ⟨hd, hp | hp⟩ := hr
  · cases hp
    exact hI.1.1
  · cases hp
    obtain ⟨-, h2, -⟩ := hI
    simp only at hd h2
    rw [hd] at h2
    cases h2

/-- **C176** Nothing outside the slices is ever written. -/
theorem ufo_written_only {k : Nat} {s : UfoSt S I O} (h : UfoRun n sino f crop k s) : ∀ j, n ≤ j → s.slices j = none := by
  obtain ⟨pc, free, inQ, pipe, outQ, stop, done, sl⟩ := s
  have hI := ufo_inv h
  intro j hj
  cases pc with
  | next i => exact hI.2.1.2 j (le_trans hI.1 hj)
  | sent i => exact hI.2.1.2 j (le_trans (le_of_lt hI.1) hj)
  | got i v => exact hI.2.2.1.2 j (le_trans (le_of_lt hI.1) hj)
  | stopped => exact hI.1.2 j hj
  | raised =>
    obtain ⟨-, -, -, -, -, i, hi, hw, -⟩ := hI
    exact hw.2 j (le_trans (le_of_lt hi) hj)

/-- **C176 (partial)** If every image fits into its slice, the threads never wait for each other: whenever the call has
not returned, one of them can go on. -/
theorem ufo_progress_partial {k : Nat} {s : UfoSt S I O} (hok : ∀ i < n, ∃ o, crop (f (sino i)) = .ok o)
    (h : UfoRun n sino f crop k s) (hr : ¬ s.Returned) : ∃ s', UfoStep n sino f crop s s' := by
  obtain ⟨pc, free, inQ, pipe, outQ, stop, done, sl⟩ := s
  have hI := ufo_inv h
  cases pc with
  | next i =>
    obtain ⟨hi, -, -, -, -, -, -, hf⟩ := hI
    rcases Nat.lt_or_eq_of_le hi with hlt | rfl
    · cases i with
      | zero => exact ⟨_, .first _ hlt rfl⟩
      | succ i => exact ⟨_, .next _ i 0 hlt rfl hf⟩
    · exact ⟨_, .stop _ rfl⟩
  | sent i =>
    obtain ⟨hi, -, -, -, h1 | h1 | h1⟩ := hI
    · exact ⟨_, .take _ _ _ h1.1⟩
    · exact ⟨_, .emit _ _ _ h1.2.1⟩
    · exact ⟨_, .fetch _ i _ _ rfl h1.2.2.1⟩
  | got i v =>
    obtain ⟨hi, rfl, -⟩ := hI
    obtain ⟨o, ho⟩ := hok i hi
    exact ⟨_, .write _ i _ o rfl ho⟩
  | stopped =>
    obtain ⟨-, h1, h2, h3, -⟩ := hI
    cases hd : done with
    | false => exact ⟨_, .finish _ h1 rfl h2 h3⟩
    | true => exact absurd ⟨hd, Or.inl rfl⟩ hr
  | raised =>
    obtain ⟨-, -, -, -, -, i, hi, -, e, he⟩ := hI
    obtain ⟨o, ho⟩ := hok i hi
    rw [he] at ho
    cases ho

/-- **C176 (partial)** If every image fits, every execution can be and, if it goes on as long as it can, will be
completed to one in which the call has returned. -/
theorem ufo_returns_partial (hok : ∀ i < n, ∃ o, crop (f (sino i)) = .ok o) {k : Nat} {s : UfoSt S I O}
    (h : UfoRun n sino f crop k s) (hmax : ∀ s', ¬ UfoStep n sino f crop s s') : s.Returned := by
  by_contra hr
  obtain ⟨s', hs⟩ := ufo_progress_partial hok h hr
  exact hmax s' hs

/-- There is an execution that goes on as long as it can. -/
theorem ufo_maximal (n : Nat) (sino : Nat → S) (f : S → I) (crop : I → Except PyErr O) :
    ∃ k s, UfoRun n sino f crop k s ∧ ∀ s', ¬ UfoStep n sino f crop s s' := by
  by_contra hc
  push Not at hc
  have : ∀ k, ∃ s, UfoRun n sino f crop k s := by
    intro k
    induction k with
    | zero => exact ⟨_, .init⟩
    | succ k ih =>
      obtain ⟨s, hs⟩ := ih
      obtain ⟨s', hs'⟩ := hc k s hs
      exact ⟨s', .step hs hs'⟩
  obtain ⟨s, hs⟩ := this (5 * n + 3)
  have := ufo_bounded hs
  omega

/-- **C176 (refutation)** If the image of one slice does not fit, the call never returns: `_process_data` ends with an
exception that nobody sees, without `input_task.stop()`, and `sched.run` waits for input for ever. -/
theorem ufo_hangs {i : Nat} (hi : i < n) {e : PyErr} (he : crop (f (sino i)) = .error e) {k : Nat}
    {s : UfoSt S I O} (h : UfoRun n sino f crop k s) : ¬ s.Returned := by
  intro hr
  obtain ⟨o, ho, -⟩ := ufo_returned_written h hr i hi
  rw [he] at ho
  cases ho

/-- In the end the thread of `_process_data` has been ended by the exception, with the graph empty and not stopped. -/
theorem ufo_hangs_state {i : Nat} (hi : i < n) {e : PyErr} (he : crop (f (sino i)) = .error e) {k : Nat}
    {s : UfoSt S I O} (h : UfoRun n sino f crop k s) (hmax : ∀ s', ¬ UfoStep n sino f crop s s') :
    s.pc = .raised ∧ s.stop = false ∧ s.done = false ∧ s.inQ = [] ∧ s.pipe = [] ∧ s.outQ = [] := by
  have hr := ufo_hangs hi he h
  have hI := ufo_inv h
  obtain ⟨pc, free, inQ, pipe, outQ, stop, done, sl⟩ := s
  cases pc with
  | next j =>
    exfalso
    obtain ⟨hj, -, -, -, -, -, -, hf⟩ := hI
    rcases Nat.lt_or_eq_of_le hj with hlt | rfl
    · cases j with
      | zero => exact hmax _ (.first _ hlt rfl)
      | succ j => exact hmax _ (.next _ j 0 hlt rfl hf)
    · exact hmax _ (.stop _ rfl)
  | sent j =>
    exfalso
    obtain ⟨hj, -, -, -, h1 | h1 | h1⟩ := hI
    · exact hmax _ (.take _ _ _ h1.1)
    · exact hmax _ (.emit _ _ _ h1.2.1)
    · exact hmax _ (.fetch _ j _ _ rfl h1.2.2.1)
  | got j v =>
    exfalso
    cases hc : crop v with
    | ok o => exact hmax _ (.write _ j v o rfl hc)
    | error e' => exact hmax _ (.fail _ j v e' rfl hc)
  | stopped =>
    exfalso
    obtain ⟨-, h1, h2, h3, -⟩ := hI
    cases hd : done with
    | false => subst hd; exact hmax _ (.finish _ h1 rfl h2 h3)
    | true => exact hr ⟨hd, Or.inl rfl⟩
  | raised =>
    obtain ⟨h1, h2, h3, h4, h5, -⟩ := hI
    exact ⟨rfl, h1, h2, h3, h4, h5⟩

/-- **C176** Exactly when the call can return. -/
theorem ufo_returns_iff (n : Nat) (sino : Nat → S) (f : S → I) (crop : I → Except PyErr O) :
    (∃ k s, UfoRun n sino f crop k s ∧ s.Returned) ↔ ∀ i < n, ∃ o, crop (f (sino i)) = .ok o := by
  constructor
  · rintro ⟨k, s, h, hr⟩ i hi
    obtain ⟨o, ho, -⟩ := ufo_returned_written h hr i hi
    exact ⟨o, ho⟩
  · intro hok
    obtain ⟨k, s, h, hmax⟩ := ufo_maximal n sino f crop
    exact ⟨k, s, h, ufo_returns_partial hok h hmax⟩

/-- Square images that are not smaller than the detector fit exactly into slices of the width of the detector. -/
theorem ufo_crop_iff {α : Type} {m w : Nat} (hm : w ≤ m) (hw : 2 ≤ w) (gx gy : Nat) (arr : Nat → Nat → α) :
    (∃ o, ufoCrop m m w gx gy arr = .ok o) ↔ gx = w ∧ gy = w := by
  have hf : pyBound m (ufoFrom m w) = ((m - w) / 2 : Nat) := by
    unfold ufoFrom pyBound
    rw [Int.tdiv_eq_ediv_of_nonneg (by omega)]
    split_ifs <;> omega
  have ht : pyBound m (ufoTo m w) = ((m + w) / 2 : Nat) := by
    unfold ufoTo pyBound
    rw [Int.tdiv_eq_ediv_of_nonneg (by omega)]
    split_ifs <;> omega
  have hsz : ((((m + w) / 2 : Nat) : Int) - (((m - w) / 2 : Nat) : Int)).toNat = w := by omega
  unfold ufoCrop
  simp only [hf, ht, hsz]
  constructor
  · rintro ⟨o, h⟩
    split at h
    · rename_i h'
      omega
    · cases h
  · rintro ⟨rfl, rfl⟩
    exact ⟨_, if_pos (by simp)⟩

/-- **C176 (refutation)** `recon(tomo, theta, algorithm=ufo_fbp, num_gridx=gx, num_gridy=gy)` returns exactly if the
grid has the width `w` of the detector, for task graphs that give square images of `m ≥ w` pixels. -/
theorem ufo_grid_hangs {α : Type} {n m w : Nat} (hn : 0 < n) (hm : w ≤ m) (hw : 2 ≤ w) (gx gy : Nat) (sino : Nat → S)
    (f : S → Nat → Nat → α) :
    (∃ k s, UfoRun n sino f (ufoCrop m m w gx gy) k s ∧ s.Returned) ↔ gx = w ∧ gy = w := by
  rw [ufo_returns_iff]
  constructor
  · intro h
    exact (ufo_crop_iff hm hw gx gy _).mp (h 0 hn)
  · intro h i _
    exact (ufo_crop_iff hm hw gx gy _).mpr h

/-! ### Cases -/

/-- Two slices of a detector of two pixels on a grid of two pixels: returns. -/
example : ∃ k s, UfoRun 2 (fun i => i) (fun i y x => 100 * i + 10 * y + x) (ufoCrop 2 2 2 2 2) k s ∧ s.Returned :=
  (ufo_grid_hangs (by decide) (by decide) (by decide) 2 2 _ _).mpr ⟨rfl, rfl⟩

/-- On a grid of three pixels it does not. -/
example : ¬ ∃ k s, UfoRun 2 (fun i => i) (fun i y x => 100 * i + 10 * y + x) (ufoCrop 2 2 2 3 3) k s ∧ s.Returned :=
  fun h => absurd ((ufo_grid_hangs (by decide) (by decide) (by decide) 3 3 _ _).mp h).1 (by decide)

end Tomopy.Wrap
