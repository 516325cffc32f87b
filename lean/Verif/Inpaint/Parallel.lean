import Verif.Inpaint.Props

/-! The parallel loops of the inpainter compute the sequential pass for every schedule (C26). -/
set_option linter.unusedSectionVars false

namespace Tomopy.Inpaint
open Tomopy.Num Tomopy.Par Tomopy.Corr

variable {K : Type} [LinearOrder K] [Field K] [IsStrictOrderedRing K]

/-- a `bool` in memory -/
def enc (b : Bool) : K := if b then 1 else 0

/-- The memory holds the arrays of `s`. -/
def Enc (s : St K) (m : ICell → K) : Prop :=
  ∀ a, m (.out a) = s.out a ∧ m (.upd a) = s.upd a ∧ m (.msk a) = enc (s.msk a)

/-- The iterations of the loop handle every voxel exactly once. -/
structure Geo.Part (g : Geo) : Prop where
  nodup : ∀ i < g.nTasks, (g.task i).Nodup
  lt : ∀ i < g.nTasks, ∀ a ∈ g.task i, a < g.N
  disj : ∀ i < g.nTasks, ∀ j < g.nTasks, i ≠ j → ∀ a ∈ g.task i, a ∉ g.task j
  cover : ∀ a < g.N, ∃ i < g.nTasks, a ∈ g.task i

theorem geo2_part (dX dY hw : Nat) : (geo2 dX dY hw).Part where
  nodup := by
    intro i hi
    refine List.nodup_range.map ?_
    intro j j' h
    have hX : 0 < dX := Nat.lt_of_le_of_lt (Nat.zero_le _) hi
    exact Nat.eq_of_mul_eq_mul_right hX (Nat.add_right_cancel h)
  lt := by
    intro i hi a ha
    obtain ⟨j, hj, rfl⟩ := List.mem_map.1 ha
    exact lt2 hi (List.mem_range.1 hj)
  disj := by
    intro i hi i' hi' hne a ha ha'
    obtain ⟨j, hj, rfl⟩ := List.mem_map.1 ha
    obtain ⟨j', hj', e⟩ := List.mem_map.1 ha'
    have := congrArg (· % dX) e
    simp only [Nat.mul_comm _ dX, Nat.mul_add_mod, Nat.mod_eq_of_lt (show i < dX from hi),
      Nat.mod_eq_of_lt (show i' < dX from hi')] at this
    exact hne this.symm
  cover := by
    intro a ha
    obtain ⟨d1, d2, d3⟩ := decode2 ha
    exact ⟨a % dX, d1, List.mem_map.2 ⟨a / dX, List.mem_range.2 d2, d3⟩⟩

theorem geo3_part (dX dY dZ hw : Nat) : (geo3 dX dY dZ hw).Part where
  nodup := by
    intro i hi
    have hi : i < dX := hi
    show ((List.range dY).flatMap fun j => (List.range dZ).map fun k => idx3 dX dY i j k).Nodup
    rw [List.nodup_flatMap]
    constructor
    · intro j hj
      have hj := List.mem_range.1 hj
      refine List.nodup_range.map ?_
      intro k k' h
      have := (idx3_decode (k := k) hi hj).2.2
      have h2 := (idx3_decode (k := k') hi hj).2.2
      simp only at h
      rw [h, h2] at this
      exact this.symm
    · refine List.nodup_range.pairwise_of_forall_ne ?_
      intro j hj j' hj' hne a ha ha'
      obtain ⟨k, _, rfl⟩ := List.mem_map.1 ha
      obtain ⟨k', _, e⟩ := List.mem_map.1 ha'
      have h1 := (idx3_decode (k := k) hi (List.mem_range.1 hj)).2.1
      have h2 := (idx3_decode (k := k') hi (List.mem_range.1 hj')).2.1
      rw [e, h1] at h2
      exact hne h2
  lt := by
    intro i hi a ha
    obtain ⟨j, hj, ha⟩ := List.mem_flatMap.1 ha
    obtain ⟨k, hk, rfl⟩ := List.mem_map.1 ha
    exact idx3_lt' _ _ _ _ _ _ hi (List.mem_range.1 hj) (List.mem_range.1 hk)
  disj := by
    intro i hi i' hi' hne a ha ha'
    obtain ⟨j, hj, ha⟩ := List.mem_flatMap.1 ha
    obtain ⟨k, hk, rfl⟩ := List.mem_map.1 ha
    obtain ⟨j', hj', ha'⟩ := List.mem_flatMap.1 ha'
    obtain ⟨k', hk', e⟩ := List.mem_map.1 ha'
    have hi : i < dX := hi
    have hi' : i' < dX := hi'
    have h1 := (idx3_decode (k := k) hi (List.mem_range.1 hj)).1
    have h2 := (idx3_decode (k := k') hi' (List.mem_range.1 hj')).1
    rw [e, h1] at h2
    exact hne h2
  cover := by
    intro a ha
    obtain ⟨d1, d2, d3, d4⟩ := decode3 ha
    exact ⟨a % dX, d1, List.mem_flatMap.2 ⟨_, List.mem_range.2 d2,
      List.mem_map.2 ⟨_, List.mem_range.2 d3, d4⟩⟩⟩

/-- Cells read and written by the program for the voxels `as`. -/
def RI (as : List Nat) (l : ICell) : Prop := (∃ a, l = .out a) ∨ ∃ a ∈ as, l = .msk a

def WI (as : List Nat) (l : ICell) : Prop := ∃ a ∈ as, l = .upd a ∨ l = .msk a

theorem task_within (k : Kernel K) (all : List Nat) (as : List Nat) (hsub : ∀ a ∈ as, a ∈ all) :
    (taskProg k as).Within (RI all) (WI all) := by
  induction as with
  | nil => trivial
  | cons a as ih =>
    have ih' := ih fun b hb => hsub b (List.mem_cons_of_mem _ hb)
    have ha := hsub a List.mem_cons_self
    rw [taskProg]
    refine ⟨Or.inr ⟨a, ha, rfl⟩, fun m => ?_⟩
    dsimp only
    split
    · refine within_readAll _ _ ?_ ?_
      · intro l hl
        obtain ⟨b, _, rfl⟩ := List.mem_map.1 hl
        exact Or.inl ⟨b, rfl⟩
      · intro ns _
        split
        · refine within_readAll _ _ ?_ ?_
          · intro l hl
            obtain ⟨b, _, rfl⟩ := List.mem_map.1 hl
            exact Or.inl ⟨b, rfl⟩
          · intro vs _
            cases k.val a vs with
            | keep => exact ih'
            | crash => trivial
            | store v =>
              refine ⟨⟨a, ha, Or.inl rfl⟩, ?_⟩
              split
              · exact ⟨⟨a, ha, Or.inr rfl⟩, ih'⟩
              · exact ih'
        · exact ih'
    · exact ih'

theorem enc_ne_zero (b : Bool) : (enc b : K) ≠ 0 ↔ b = true := by
  cases b <;> simp [enc]

/-- One voxel of the program, as a change of memory. -/
theorem taskProg_cons (k : Kernel K) (a : Nat) (as : List Nat) (s : St K) (m : ICell → K)
    (ho : ∀ b, m (.out b) = s.out b) (hm : m (.msk a) = enc (s.msk a))
    (hc : s.msk a = true → k.vox s.out a ≠ .crash) :
    (taskProg k (a :: as)).run m = (taskProg k as).run
      (if s.msk a = true then
        match k.vox s.out a with
        | .store v => if k.clear then upd (upd m (.upd a) v) (.msk a) 0 else upd m (.upd a) v
        | _ => m
       else m) := by
  rw [taskProg, Prog.run, hm]
  by_cases hmask : s.msk a = true
  · rw [if_pos ((enc_ne_zero _).2 hmask), if_pos hmask, run_readAll]
    have e : ∀ l : List Nat, (l.map ICell.out).map m = l.map s.out := by
      intro l
      rw [List.map_map]
      exact List.map_congr_left fun b _ => ho b
    rw [e]
    have hc' := hc hmask
    unfold Kernel.vox at hc' ⊢
    by_cases hv : k.vic ((k.first a).map s.out) = true
    · rw [if_pos hv] at hc' ⊢
      rw [if_pos hv, run_readAll, e]
      cases hval : k.val a ((k.second a).map s.out) with
      | keep => rfl
      | crash => exact absurd hval hc'
      | store v =>
        simp only
        rw [Prog.run]
        split
        · rw [Prog.run]
        · rfl
    · rw [if_neg hv, if_neg hv]
  · rw [if_neg (fun h => hmask ((enc_ne_zero _).1 h)), if_neg hmask]

theorem taskProg_run (k : Kernel K) (s : St K) (as : List Nat) (hn : as.Nodup)
    (hc : ∀ a ∈ as, s.msk a = true → k.vox s.out a ≠ .crash) :
    ∀ m : ICell → K, (∀ b, m (.out b) = s.out b) →
      (∀ a ∈ as, m (.upd a) = s.upd a ∧ m (.msk a) = enc (s.msk a)) →
      (∀ a ∈ as, (taskProg k as).run m (.upd a) = k.upd' s a ∧
        (taskProg k as).run m (.msk a) = enc (k.msk' s a)) ∧
      (∀ b, (taskProg k as).run m (.out b) = s.out b) ∧
      (∀ b, b ∉ as → (taskProg k as).run m (.upd b) = m (.upd b) ∧
        (taskProg k as).run m (.msk b) = m (.msk b)) := by
  induction as with
  | nil =>
    intro m ho _
    exact ⟨by simp, ho, fun b _ => ⟨rfl, rfl⟩⟩
  | cons a as ih =>
    intro m ho hu
    obtain ⟨hna, hn'⟩ := List.nodup_cons.1 hn
    obtain ⟨hua, hma⟩ := hu a List.mem_cons_self
    rw [taskProg_cons k a as s m ho hma (hc a List.mem_cons_self)]
    generalize hM : (if s.msk a = true then
        match k.vox s.out a with
        | .store v => if k.clear then upd (upd m (.upd a) v) (.msk a) 0 else upd m (.upd a) v
        | _ => m
       else m) = M
    have hMout : ∀ b, M (.out b) = s.out b := by
      intro b
      rw [← hM, ← ho b]
      split
      · split
        · split <;> simp [upd]
        · rfl
      · rfl
    have hMother : ∀ b, b ≠ a → M (.upd b) = m (.upd b) ∧ M (.msk b) = m (.msk b) := by
      intro b hb
      rw [← hM]
      split
      · split
        · split <;> simp [upd, hb]
        · exact ⟨rfl, rfl⟩
      · exact ⟨rfl, rfl⟩
    have hMa : M (.upd a) = k.upd' s a ∧ M (.msk a) = enc (k.msk' s a) := by
      rw [← hM]
      unfold Kernel.upd' Kernel.msk'
      have hcc := hc a List.mem_cons_self
      cases hmask : s.msk a with
      | false => simp [hua, hma, hmask]
      | true =>
        cases hv : k.vox s.out a with
        | keep => simp [hua, hma, hmask]
        | crash => exact absurd hv (hcc hmask)
        | store v =>
          cases hcl : k.clear
          · simp [upd, hma, hmask]
          · simp [upd, enc]
    obtain ⟨i1, i2, i3⟩ := ih hn' (fun b hb => hc b (List.mem_cons_of_mem _ hb)) M hMout
      (fun b hb => by
        have hne : b ≠ a := fun e => hna (e ▸ hb)
        obtain ⟨o1, o2⟩ := hMother b hne
        obtain ⟨u1, u2⟩ := hu b (List.mem_cons_of_mem _ hb)
        exact ⟨o1.trans u1, o2.trans u2⟩)
    refine ⟨?_, i2, ?_⟩
    · intro b hb
      by_cases hba : b = a
      · subst hba
        obtain ⟨j1, j2⟩ := i3 b hna
        exact ⟨j1.trans hMa.1, j2.trans hMa.2⟩
      · exact i1 b ((List.mem_cons.1 hb).resolve_left hba)
    · intro b hb
      have hba : b ≠ a := fun e => hb (e ▸ List.mem_cons_self)
      have hb' : b ∉ as := fun h => hb (List.mem_cons_of_mem _ h)
      obtain ⟨j1, j2⟩ := i3 b hb'
      obtain ⟨o1, o2⟩ := hMother b hba
      exact ⟨j1.trans o1, j2.trans o2⟩

/-- **C26** For every schedule of the parallel loop (any number of threads, any interleaving of
their memory accesses), if the loop finishes then the three arrays hold exactly the result of the
sequential pass: no thread sees the values written by another one. -/
theorem inpaint_pass_parallel (g : Geo) (hp : g.Part) (k : Kernel K) (s : St K) (m : ICell → K)
    (he : Enc s m) (hc : ∀ a < g.N, s.msk a = true → k.vox s.out a ≠ .crash)
    (sched : List Nat) (hf : (Config.exec ⟨task g k, m⟩ sched).Finished) :
    ∀ a < g.N,
      (Config.exec ⟨task g k, m⟩ sched).mem (.out a) = s.out a ∧
      (Config.exec ⟨task g k, m⟩ sched).mem (.upd a) = k.upd' s a ∧
      (Config.exec ⟨task g k, m⟩ sched).mem (.msk a) = enc (k.msk' s a) := by
  have hd : NonInterfering (fun i => RI (if i < g.nTasks then g.task i else []))
      (fun i => WI (if i < g.nTasks then g.task i else [])) := by
    intro i j hne l hw hrw
    obtain ⟨a, ha, hl⟩ := hw
    have hj : j < g.nTasks := by
      by_contra h; rw [if_neg h] at ha; cases ha
    rw [if_pos hj] at ha
    have key : ∀ b, b ∈ (if i < g.nTasks then g.task i else []) → b ≠ a := by
      intro b hb e
      have hi : i < g.nTasks := by
        by_contra h; rw [if_neg h] at hb; cases hb
      rw [if_pos hi] at hb
      subst e
      exact hp.disj i hi j hj hne b hb ha
    rcases hrw with (⟨b, e⟩ | ⟨b, hb, e⟩) | ⟨b, hb, e⟩
    · rcases hl with hl | hl <;> rw [hl] at e <;> cases e
    · rcases hl with hl | hl <;> rw [hl] at e <;> cases e
      exact key a hb rfl
    · rcases hl with hl | hl <;> rw [hl] at e <;> rcases e with e | e <;> cases e
      · exact key a hb rfl
      · exact key a hb rfl
  have hwi : ∀ i, ((⟨task g k, m⟩ : Config Nat ICell K).tasks i).Within
      (RI (if i < g.nTasks then g.task i else [])) (WI (if i < g.nTasks then g.task i else [])) := by
    intro i
    show (task g k i).Within _ _
    unfold task
    split
    · exact task_within k _ _ fun a h => h
    · trivial
  obtain ⟨h1, h2⟩ := exec_finished hd ⟨task g k, m⟩ hwi sched hf
  intro a ha
  obtain ⟨i, hi, hai⟩ := hp.cover a ha
  obtain ⟨r1, r2, _⟩ := taskProg_run k s (g.task i) (hp.nodup i hi)
    (fun b hb => hc b (hp.lt i hi b hb)) m (fun b => (he b).1) (fun b _ => (he b).2)
  have hti : task g k i = taskProg k (g.task i) := by unfold task; rw [if_pos hi]
  refine ⟨?_, ?_, ?_⟩
  · rw [h2 (.out a) ?_]
    · exact (he a).1
    · rintro j ⟨b, _, e⟩
      rcases e with e | e <;> cases e
  · rw [h1 i (.upd a) ⟨a, by rw [if_pos hi]; exact hai, Or.inl rfl⟩]
    show (task g k i).run m _ = _
    rw [hti]; exact (r1 a hai).1
  · rw [h1 i (.msk a) ⟨a, by rw [if_pos hi]; exact hai, Or.inr rfl⟩]
    show (task g k i).run m _ = _
    rw [hti]; exact (r1 a hai).2

/-- **C26** Finished schedules exist. -/
theorem inpaint_pass_exists (g : Geo) (k : Kernel K) (m : ICell → K) :
    ∃ sched, (Config.exec ⟨task g k, m⟩ sched).Finished :=
  exists_finished (List.range g.nTasks) _ fun i hi => by
    show task g k i = .done
    unfold task
    rw [if_neg (by simpa using hi)]

example : (geo3 2 3 2 1).Part ∧ (geo2 5 4 1).Part := ⟨geo3_part .., geo2_part ..⟩

end Tomopy.Inpaint
