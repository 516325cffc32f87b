import Verif.Par.Model

/-! Helper lemmas and the main non-interference theorem for interleaved programs. -/
namespace Tomopy.Par

variable {L V ι : Type} [DecidableEq L] [DecidableEq ι]

theorem run_step (p : Prog L V) (m : L → V) :
    (p.step m).1.run (p.step m).2 = p.run m := by
  cases p <;> rfl

theorem within_step {R W : L → Prop} {p : Prog L V} (h : p.Within R W) (m : L → V) :
    (p.step m).1.Within R W := by
  cases p with
  | done => exact h
  | read l k => exact h.2 _
  | write l v k => exact h.2

/-- A step only changes cells of the write set. -/
theorem step_mem_eq {R W : L → Prop} {p : Prog L V} (h : p.Within R W) (m : L → V) (l : L)
    (hl : ¬ W l) : (p.step m).2 l = m l := by
  cases p with
  | done => rfl
  | read l' k => rfl
  | write l' v k =>
    have : l ≠ l' := fun e => hl (e ▸ h.1)
    simp [Prog.step, upd, this]

/-- The effect of a program on its footprint only depends on its footprint. -/
theorem run_congr {R W : L → Prop} {p : Prog L V} (h : p.Within R W) :
    ∀ {m m' : L → V}, (∀ l, R l ∨ W l → m l = m' l) →
      ∀ l, R l ∨ W l → p.run m l = p.run m' l := by
  induction p with
  | done => intro m m' e l hl; exact e l hl
  | read l' k ih =>
    intro m m' e l hl
    simp only [Prog.run]
    rw [e l' (Or.inl h.1)]
    exact ih _ (h.2 _) e l hl
  | write l' v k ih =>
    intro m m' e l hl
    simp only [Prog.run]
    refine ih h.2 ?_ l hl
    intro x hx
    unfold upd
    split
    · rfl
    · exact e x hx

theorem run_frame {R W : L → Prop} {p : Prog L V} (h : p.Within R W) :
    ∀ (m : L → V) (l : L), ¬ W l → p.run m l = m l := by
  induction p with
  | done => intro m l _; rfl
  | read l' k ih => intro m l hl; exact ih _ (h.2 _) m l hl
  | write l' v k ih =>
    intro m l hl
    have : l ≠ l' := fun e => hl (e ▸ h.1)
    simp only [Prog.run]
    rw [ih h.2 _ l hl]
    simp [upd, this]

/-- The programs do not interfere: nobody writes a cell another one reads or writes. -/
def NonInterfering (R W : ι → L → Prop) : Prop :=
  ∀ i j, i ≠ j → ∀ l, W j l → ¬ (R i l ∨ W i l)

theorem exec_run_eq {R W : ι → L → Prop} (hd : NonInterfering R W) (sched : List ι) :
    ∀ (c : Config ι L V), (∀ i, (c.tasks i).Within (R i) (W i)) →
      (∀ i, ((c.exec sched).tasks i).Within (R i) (W i)) ∧
      (∀ i l, W i l →
        ((c.exec sched).tasks i).run (c.exec sched).mem l = (c.tasks i).run c.mem l) ∧
      (∀ l, (∀ i, ¬ W i l) → (c.exec sched).mem l = c.mem l) := by
  induction sched with
  | nil => intro c h; exact ⟨h, fun _ _ _ => rfl, fun _ _ => rfl⟩
  | cons t ts ih =>
    intro c h
    have h' : ∀ i, ((c.step t).tasks i).Within (R i) (W i) := by
      intro i
      simp only [Config.step]
      by_cases e : i = t
      · subst e; simpa using within_step (h i) c.mem
      · simpa [e] using h i
    obtain ⟨a, b, d⟩ := ih (c.step t) h'
    refine ⟨a, ?_, ?_⟩
    · intro i l hl
      have hb := b i l hl
      simp only [Config.exec, List.foldl_cons] at hb ⊢
      rw [hb]
      by_cases e : i = t
      · subst e
        have := run_step (c.tasks i) c.mem
        simp only [Config.step, if_true]
        rw [this]
      · simp only [Config.step, if_neg e]
        refine run_congr (h i) ?_ l (Or.inr hl)
        intro x hx
        refine step_mem_eq (h t) c.mem x ?_
        intro hw
        exact hd i t e x hw hx
    · intro l hl
      have hb := d l hl
      simp only [Config.exec, List.foldl_cons] at hb ⊢
      rw [hb]
      exact step_mem_eq (h t) c.mem l (hl t)

/-- **Non-interference.** Every complete interleaving of non-interfering tasks leaves in each
cell what the (only) task writing it would have left when run alone from the start. -/
theorem exec_finished {R W : ι → L → Prop} (hd : NonInterfering R W) (c : Config ι L V)
    (h : ∀ i, (c.tasks i).Within (R i) (W i)) (sched : List ι)
    (hf : (c.exec sched).Finished) :
    (∀ i l, W i l → (c.exec sched).mem l = (c.tasks i).run c.mem l) ∧
    (∀ l, (∀ i, ¬ W i l) → (c.exec sched).mem l = c.mem l) := by
  obtain ⟨_, b, d⟩ := exec_run_eq hd sched c h
  refine ⟨?_, d⟩
  intro i l hl
  have := b i l hl
  rw [hf i] at this
  exact this

omit [DecidableEq ι] in
/-- Running non-interfering tasks one after the other (any duplicate-free order). -/
theorem foldl_run {R W : ι → L → Prop} (hd : NonInterfering R W) (t : ι → Prog L V)
    (h : ∀ i, (t i).Within (R i) (W i)) (order : List ι) (hn : order.Nodup) :
    ∀ m : L → V,
      (∀ i ∈ order, ∀ l, W i l → order.foldl (fun m i => (t i).run m) m l = (t i).run m l) ∧
      (∀ l, (∀ i ∈ order, ¬ W i l) → order.foldl (fun m i => (t i).run m) m l = m l) := by
  induction order with
  | nil => intro m; exact ⟨by simp, by simp⟩
  | cons a as ih =>
    intro m
    rw [List.nodup_cons] at hn
    obtain ⟨p, q⟩ := ih hn.2 ((t a).run m)
    refine ⟨?_, ?_⟩
    · intro i hi l hl
      simp only [List.foldl_cons]
      rcases List.mem_cons.1 hi with e | hi
      · subst e
        refine q l ?_
        intro j hj hw
        have hne : i ≠ j := fun e => hn.1 (e ▸ hj)
        exact hd i j hne l hw (Or.inr hl)
      · rw [p i hi l hl]
        have hne : i ≠ a := fun e => hn.1 (e ▸ hi)
        refine run_congr (h i) ?_ l (Or.inr hl)
        intro x hx
        exact run_frame (h a) m x (fun hw => hd i a hne x hw hx)
    · intro l hl
      simp only [List.foldl_cons]
      rw [q l (fun j hj => hl j (List.mem_cons_of_mem _ hj))]
      exact run_frame (h a) m l (hl a List.mem_cons_self)

omit [DecidableEq L] in
theorem within_writeAll {R W : L → Prop} (ws : List (L × V)) (h : ∀ p ∈ ws, W p.1) :
    (Prog.writeAll ws).Within R W := by
  induction ws with
  | nil => trivial
  | cons p ps ih =>
    exact ⟨h p List.mem_cons_self, ih fun q hq => h q (List.mem_cons_of_mem _ hq)⟩

omit [DecidableEq L] in
theorem within_readAll {R W : L → Prop} (ls : List L) :
    ∀ (k : List V → Prog L V), (∀ l ∈ ls, R l) →
      (∀ vs, vs.length = ls.length → (k vs).Within R W) →
    (Prog.readAll ls k).Within R W := by
  induction ls with
  | nil => intro k _ hk; exact hk [] rfl
  | cons l ls ih =>
    intro k h hk
    refine ⟨h l List.mem_cons_self, fun v => ih _ (fun x hx => h x (List.mem_cons_of_mem _ hx)) ?_⟩
    intro vs hv
    exact hk _ (by simp [hv])

theorem run_readAll (ls : List L) :
    ∀ (k : List V → Prog L V) (m : L → V),
      (Prog.readAll ls k).run m = (k (ls.map m)).run m := by
  induction ls with
  | nil => intro k m; rfl
  | cons l ls ih => intro k m; simp [Prog.readAll, Prog.run, ih]

/-- Value of a cell after a list of writes: the last write to the cell, if any. -/
theorem run_writeAll_not_mem (ws : List (L × V)) :
    ∀ (m : L → V) (l : L), (∀ p ∈ ws, p.1 ≠ l) → (Prog.writeAll ws).run m l = m l := by
  induction ws with
  | nil => intro m l _; rfl
  | cons p ps ih =>
    intro m l h
    simp only [Prog.writeAll, Prog.run]
    rw [ih _ l fun q hq => h q (List.mem_cons_of_mem _ hq)]
    have := h p List.mem_cons_self
    simp [upd, Ne.symm this]

theorem run_writeAll_append (ws ws' : List (L × V)) :
    ∀ (m : L → V), (Prog.writeAll (ws ++ ws')).run m
      = (Prog.writeAll ws').run ((Prog.writeAll ws).run m) := by
  induction ws with
  | nil => intro m; rfl
  | cons p ps ih => intro m; simp [Prog.writeAll, Prog.run, ih]

theorem run_writeAll_mem (ws : List (L × V)) (hn : (ws.map Prod.fst).Nodup) :
    ∀ (m : L → V) (l : L) (v : V), (l, v) ∈ ws → (Prog.writeAll ws).run m l = v := by
  induction ws with
  | nil => intro m l v h; cases h
  | cons p ps ih =>
    intro m l v h
    simp only [List.map_cons, List.nodup_cons] at hn
    rcases List.mem_cons.1 h with e | h
    · subst e
      simp only [Prog.writeAll, Prog.run]
      rw [run_writeAll_not_mem]
      · simp [upd]
      · intro q hq e
        exact hn.1 (List.mem_map.2 ⟨q, hq, e⟩)
    · simp only [Prog.writeAll, Prog.run]
      exact ih hn.2 _ l v h

/-- There always is a complete schedule (so "for every complete schedule" is not vacuous). -/
theorem exists_finish_one (p : Prog L V) :
    ∀ (m : L → V), ∃ n : Nat, ∀ (c : Config ι L V) (i : ι), c.tasks i = p → c.mem = m →
      (c.exec (List.replicate n i)).tasks i = .done ∧
      ∀ j, j ≠ i → (c.exec (List.replicate n i)).tasks j = c.tasks j := by
  induction p with
  | done => intro m; exact ⟨0, fun c i h _ => ⟨h, fun _ _ => rfl⟩⟩
  | read l k ih =>
    intro m
    obtain ⟨n, hn⟩ := ih (m l) m
    refine ⟨n + 1, ?_⟩
    intro c i h hm
    have := hn (c.step i) i (by simp [Config.step, h, Prog.step, hm])
      (by simp [Config.step, h, Prog.step, hm])
    refine ⟨this.1, fun j hj => ?_⟩
    have h2 := this.2 j hj
    simp only [List.replicate_succ, Config.exec, List.foldl_cons] at h2 ⊢
    rw [h2]
    simp [Config.step, hj]
  | write l v k ih =>
    intro m
    obtain ⟨n, hn⟩ := ih (upd m l v)
    refine ⟨n + 1, ?_⟩
    intro c i h hm
    have := hn (c.step i) i (by simp [Config.step, h, Prog.step])
      (by simp [Config.step, h, Prog.step, hm])
    refine ⟨this.1, fun j hj => ?_⟩
    have h2 := this.2 j hj
    simp only [List.replicate_succ, Config.exec, List.foldl_cons] at h2 ⊢
    rw [h2]
    simp [Config.step, hj]

theorem exists_finished_aux (is : List ι) :
    ∀ (c : Config ι L V), ∃ sched : List ι, (∀ i ∈ is, (c.exec sched).tasks i = .done) ∧
      ∀ i, c.tasks i = .done → (c.exec sched).tasks i = .done := by
  induction is with
  | nil => intro c; exact ⟨[], by simp, fun i h => h⟩
  | cons a as ih =>
    intro c
    obtain ⟨n, hn⟩ := exists_finish_one (ι := ι) (c.tasks a) c.mem
    obtain ⟨h1, h2⟩ := hn c a rfl rfl
    obtain ⟨s, hs, hs'⟩ := ih (c.exec (List.replicate n a))
    have keep : ∀ i, c.tasks i = .done →
        (c.exec (List.replicate n a)).tasks i = .done := by
      intro i hi
      by_cases e : i = a
      · subst e; exact h1
      · rw [h2 i e]; exact hi
    have ap : c.exec (List.replicate n a ++ s) = (c.exec (List.replicate n a)).exec s := by
      simp [Config.exec, List.foldl_append]
    refine ⟨List.replicate n a ++ s, ?_, ?_⟩
    · intro i hi
      rw [ap]
      rcases List.mem_cons.1 hi with e | hi
      · subst e; exact hs' _ h1
      · exact hs i hi
    · intro i hi
      rw [ap]
      exact hs' i (keep i hi)

/-- Every pool of finitely many tasks has a complete schedule. -/
theorem exists_finished (is : List ι) (c : Config ι L V)
    (h : ∀ i, i ∉ is → c.tasks i = .done) :
    ∃ sched : List ι, (c.exec sched).Finished := by
  obtain ⟨s, hs, hs'⟩ := exists_finished_aux is c
  refine ⟨s, fun i => ?_⟩
  by_cases e : i ∈ is
  · exact hs i e
  · exact hs' i (h i e)

end Tomopy.Par
