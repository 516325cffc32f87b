import Verif.Accel.StreamModel
import Mathlib.Algebra.BigOperators.Fin
import Mathlib.Algebra.BigOperators.Group.Multiset.Basic
import Mathlib.Data.Fintype.BigOperators
import Mathlib.Data.Multiset.Basic
import Mathlib.Tactic.Abel

/-! C132: the reset of `update` and the additions to it. -/
set_option linter.unusedSectionVars false

namespace Tomopy.Stream

variable {m : Nat} {P V : Type} [AddCommMonoid V] {c : P → V → V} {f : V → V → V}

/-- Specification: one iteration in which exactly the projections `S` count. -/
def iterate (c : P → V → V) (f : V → V → V) (x : V) (S : Multiset P) : V :=
  f x ((S.map fun p => c p x).sum)

/-- Specification: `x` comes from `x0` by iterations with sub-multisets of the projections in `alls`;
`k` is the number of projections missing in all. -/
inductive Loses (c : P → V → V) (f : V → V → V) (x0 : V) : List (Multiset P) → Nat → V → Prop where
  | nil : Loses c f x0 [] 0 x0
  | snoc {alls k x} (S W : Multiset P) : Loses c f x0 alls k x →
      Loses c f x0 (alls ++ [S + W]) (k + W.card) (iterate c f x S)

theorem Loses.exact {x0 : V} {alls : List (Multiset P)} {k : Nat} {x : V} (h : Loses c f x0 alls k x)
    (hk : k = 0) : x = alls.foldl (iterate c f) x0 := by
  induction h with
  | nil => rfl
  | snoc S W _ ih =>
    have hW : W = 0 := Multiset.card_eq_zero.1 (by omega)
    subst hW
    rw [List.foldl_append, ← ih (by simpa using hk)]
    simp

/-- Projections waiting in the worker streams. -/
def pending (work : Fin m → List P) : Multiset P := ∑ i, (work i : Multiset P)

theorem pending_nil (work : Fin m → List P) (h : ∀ i, work i = []) : pending work = 0 :=
  Finset.sum_eq_zero fun i _ => by rw [h i]; rfl

theorem pending_update (work : Fin m → List P) (i : Fin m) (l : List P) :
    pending (Function.update work i l) + (work i : Multiset P) = pending work + (l : Multiset P) := by
  unfold pending
  rw [← Finset.add_sum_erase _ _ (Finset.mem_univ i),
    ← Finset.add_sum_erase Finset.univ (fun j => (work j : Multiset P)) (Finset.mem_univ i),
    Function.update_self]
  have : ∑ x ∈ Finset.univ.erase i, (Function.update work i l x : Multiset P) =
      ∑ x ∈ Finset.univ.erase i, (work x : Multiset P) := by
    refine Finset.sum_congr rfl fun x hx => ?_
    rw [Function.update_of_ne (Finset.ne_of_mem_erase hx)]
  rw [this]
  abel

theorem pending_push (work : Fin m → List P) (i : Fin m) (p : P) :
    pending (Function.update work i (work i ++ [p])) = pending work + {p} := by
  have := pending_update work i (work i ++ [p])
  rw [← Multiset.coe_add, ← add_assoc, add_right_comm] at this
  exact add_right_cancel this

theorem pending_pop (work : Fin m → List P) (i : Fin m) (p : P) (r : List P) (h : work i = p :: r) :
    pending work = pending (Function.update work i r) + {p} := by
  have := pending_update work i r
  rw [h, ← Multiset.cons_coe, ← Multiset.singleton_add, ← add_assoc] at this
  exact (add_right_cancel this).symm

/-- Specification: the projections of one iteration. -/
def projections (a : List (Fin m × P)) : Multiset P := (a.map Prod.snd : List P)

/-- Host program from the first wait for the workers on. -/
def mid (d : Bool) (ws1 : List (Fin m)) (a : List (Fin m × P)) (ws2 : List (Fin m))
    (its : List (List (Fin m × P))) : List (Cmd m P) :=
  ws1.map .syncWorker ++ (a.map (fun j => .issue j.1 j.2) ++ (ws2.map .syncWorker ++
    .syncMain :: .issueMain .apply :: program d its))

theorem program_cons (d : Bool) (a : List (Fin m × P)) (its : List (List (Fin m × P))) :
    program d (a :: its) = .syncMain :: .issueMain .zero ::
      ((if d then [.syncMain] else []) ++ mid d (List.finRange m) a (List.finRange m) its) := by
  simp [program, iteration, syncAll, mid, List.append_assoc]

/-- Reachable configurations; `alls` are the projections of all iterations of the run. -/
inductive Inv (c : P → V → V) (f : V → V → V) (d : Bool) (x0 : V) (alls : List (Multiset P)) :
    Conf m P V → Prop where
  | between (done : List (Multiset P)) (its : List (List (Fin m × P))) (main) (work) (u x : V) (k)
      (hits : done ++ its.map projections = alls) (hw : ∀ i, work i = []) (hd : d = true → k = 0)
      (hm : (main = [] ∧ Loses c f x0 done k x) ∨ (main = [.apply] ∧ Loses c f x0 done k (f x u))) :
      Inv c f d x0 alls ⟨program d its, main, work, u, x, k⟩
  | fresh (done : List (Multiset P)) (a) (its : List (List (Fin m × P))) (work) (u x : V) (k)
      (hits : done ++ projections a :: its.map projections = alls) (hw : ∀ i, work i = [])
      (hd : d = true → k = 0) (hl : Loses c f x0 done k x) :
      Inv c f d x0 alls ⟨.issueMain .zero :: ((if d then [.syncMain] else []) ++
        mid d (List.finRange m) a (List.finRange m) its), [], work, u, x, k⟩
  | reset (done : List (Multiset P)) (a) (its : List (List (Fin m × P))) (main) (work) (u x : V) (k)
      (hits : done ++ projections a :: its.map projections = alls) (hw : ∀ i, work i = [])
      (hd : d = true) (hk : k = 0) (hl : Loses c f x0 done k x)
      (hm : main = [.zero] ∨ (main = [] ∧ u = 0)) :
      Inv c f d x0 alls ⟨.syncMain :: mid d (List.finRange m) a (List.finRange m) its,
        main, work, u, x, k⟩
  | inside (done : List (Multiset P)) (ws1 : List (Fin m)) (a) (ws2 : List (Fin m))
      (its : List (List (Fin m × P))) (main) (work) (u x : V) (k : Nat) (S W : Multiset P)
      (hits : done ++ (S + pending work + projections a + W) :: its.map projections = alls)
      (hw : ∀ i, i ∉ ws2 → work i = []) (ha : ∀ j ∈ a, j.1 ∈ ws2) (hd : d = true → k + W.card = 0)
      (hl : Loses c f x0 done k x)
      (hm : (main = [.zero] ∧ S = 0 ∧ d = false) ∨ (main = [] ∧ u = (S.map fun p => c p x).sum)) :
      Inv c f d x0 alls ⟨mid d ws1 a ws2 its, main, work, u, x, k + W.card⟩
  | full (done : List (Multiset P)) (its : List (List (Fin m × P))) (work) (u x : V) (k : Nat)
      (S W : Multiset P) (hits : done ++ (S + W) :: its.map projections = alls)
      (hw : ∀ i, work i = []) (hd : d = true → k + W.card = 0) (hl : Loses c f x0 done k x)
      (hu : u = (S.map fun p => c p x).sum) :
      Inv c f d x0 alls ⟨.issueMain .apply :: program d its, [], work, u, x, k + W.card⟩

theorem inv_start (d : Bool) (its : List (List (Fin m × P))) (u x : V) :
    Inv c f d x (its.map projections) (start d its u x) :=
  Inv.between [] its [] _ u x 0 (by simp) (fun _ => rfl) (fun _ => rfl) (Or.inl ⟨rfl, .nil⟩)

theorem mid_cons {d : Bool} {ws1 : List (Fin m)} {a : List (Fin m × P)} {ws2 : List (Fin m)}
    {its : List (List (Fin m × P))} {o : Cmd m P} {t : List (Cmd m P)}
    (h : mid d ws1 a ws2 its = o :: t) :
    (∃ i ws, ws1 = i :: ws ∧ o = .syncWorker i ∧ t = mid d ws a ws2 its) ∨
    (ws1 = [] ∧ ∃ j b, a = j :: b ∧ o = .issue j.1 j.2 ∧ t = mid d [] b ws2 its) ∨
    (ws1 = [] ∧ a = [] ∧ ∃ i ws, ws2 = i :: ws ∧ o = .syncWorker i ∧ t = mid d [] [] ws its) ∨
    (ws1 = [] ∧ a = [] ∧ ws2 = [] ∧ o = .syncMain ∧ t = .issueMain .apply :: program d its) := by
  cases ws1 with
  | cons i ws =>
    left
    simp only [mid, List.map_cons, List.cons_append, List.cons.injEq] at h
    exact ⟨i, ws, rfl, h.1.symm, h.2.symm⟩
  | nil =>
    right
    cases a with
    | cons j b =>
      left
      simp only [mid, List.map_cons, List.map_nil, List.nil_append, List.cons_append,
        List.cons.injEq] at h
      exact ⟨rfl, j, b, rfl, h.1.symm, h.2.symm⟩
    | nil =>
      right
      cases ws2 with
      | cons i ws =>
        left
        simp only [mid, List.map_cons, List.map_nil, List.nil_append, List.cons_append,
          List.cons.injEq] at h
        exact ⟨rfl, rfl, i, ws, rfl, h.1.symm, h.2.symm⟩
      | nil =>
        right
        simp only [mid, List.map_nil, List.nil_append, List.cons.injEq] at h
        exact ⟨rfl, rfl, rfl, h.1.symm, h.2.symm⟩

/-- Step out of a configuration, by the three kinds of steps. -/
theorem step_cases {t : List (Cmd m P)} {main : List MOp} {work : Fin m → List P} {u x : V} {k : Nat}
    {s' : Conf m P V} (h : Step c f ⟨t, main, work, u, x, k⟩ s') :
    (∃ r, t = .syncMain :: r ∧ main = [] ∧ s' = ⟨r, main, work, u, x, k⟩) ∨
    (∃ i r, t = .syncWorker i :: r ∧ work i = [] ∧ s' = ⟨r, main, work, u, x, k⟩) ∨
    (∃ o r, t = .issueMain o :: r ∧ s' = ⟨r, main ++ [o], work, u, x, k⟩) ∨
    (∃ i p r, t = .issue i p :: r ∧
      s' = ⟨r, main, Function.update work i (work i ++ [p]), u, x, k⟩) ∨
    (∃ r, main = .zero :: r ∧ s' = ⟨t, r, work, 0, x, k⟩) ∨
    (∃ r, main = .apply :: r ∧ s' = ⟨t, r, work, u, f x u, k⟩) ∨
    (∃ i p r, work i = p :: r ∧ s' = ⟨t, main, Function.update work i r, u + c p x, x,
      if MOp.zero ∈ main then k + 1 else k⟩) := by
  cases h with
  | syncMain => exact .inl ⟨_, rfl, rfl, rfl⟩
  | syncWorker i _ _ _ _ _ _ h => exact .inr (.inl ⟨i, _, rfl, h, rfl⟩)
  | issueMain => exact .inr (.inr (.inl ⟨_, _, rfl, rfl⟩))
  | issue => exact .inr (.inr (.inr (.inl ⟨_, _, _, rfl, rfl⟩)))
  | zero => exact .inr (.inr (.inr (.inr (.inl ⟨_, rfl, rfl⟩))))
  | apply => exact .inr (.inr (.inr (.inr (.inr (.inl ⟨_, rfl, rfl⟩)))))
  | add i p r _ _ _ _ _ _ h =>
    exact .inr (.inr (.inr (.inr (.inr (.inr ⟨i, p, r, h, rfl⟩)))))

theorem inv_step {d : Bool} {x0 : V} {alls : List (Multiset P)} {s s' : Conf m P V}
    (h : Inv c f d x0 alls s) (hs : Step c f s s') : Inv c f d x0 alls s' := by
  cases h with
  | between done its main work u x k hits hw hd hm =>
    rcases step_cases hs with ⟨r, ht, hmain, rfl⟩ | ⟨i, r, ht, -⟩ | ⟨o, r, ht, -⟩ | ⟨i, p, r, ht, -⟩ |
      ⟨r, hr, -⟩ | ⟨r, hr, rfl⟩ | ⟨i, p, r, hr, -⟩
    · subst hmain
      have hl : Loses c f x0 done k x := by
        rcases hm with ⟨-, hl⟩ | ⟨h, -⟩
        · exact hl
        · cases h
      cases its with
      | nil => cases ht
      | cons a its =>
        rw [program_cons] at ht
        obtain rfl := (List.cons.inj ht).2
        exact .fresh done a its work u x k hits hw hd hl
    · cases its with
      | nil => cases ht
      | cons a its => rw [program_cons] at ht; cases ht
    · cases its with
      | nil => cases ht
      | cons a its => rw [program_cons] at ht; cases ht
    · cases its with
      | nil => cases ht
      | cons a its => rw [program_cons] at ht; cases ht
    · rcases hm with ⟨h, -⟩ | ⟨h, -⟩ <;> rw [h] at hr <;> cases hr
    · rcases hm with ⟨h, -⟩ | ⟨h, hl⟩
      · rw [h] at hr; cases hr
      · rw [h] at hr
        cases hr
        exact .between done its [] work u _ k hits hw hd (.inl ⟨rfl, hl⟩)
    · rw [hw i] at hr; cases hr
  | fresh done a its work u x k hits hw hd hl =>
    rcases step_cases hs with ⟨r, ht, -⟩ | ⟨i, r, ht, -⟩ | ⟨o, r, ht, rfl⟩ | ⟨i, p, r, ht, -⟩ |
      ⟨r, hr, -⟩ | ⟨r, hr, -⟩ | ⟨i, p, r, hr, -⟩
    · cases ht
    · cases ht
    · obtain ⟨h1, rfl⟩ := List.cons.inj ht
      cases h1
      cases d with
      | true => exact .reset done a its _ work u x k hits hw rfl (hd rfl) hl (.inl rfl)
      | false =>
        have := Inv.inside (c := c) (f := f) (d := false) (x0 := x0) (alls := alls) done
          (List.finRange m) a (List.finRange m) its [.zero] work u x k 0 0
          (by rw [pending_nil work hw]; simpa using hits) (fun i _ => hw i)
          (fun j _ => List.mem_finRange _) (by simp) hl (.inl ⟨rfl, rfl, rfl⟩)
        simpa using this
    · cases ht
    · cases hr
    · cases hr
    · rw [hw i] at hr; cases hr
  | reset done a its main work u x k hits hw hd hk hl hm =>
    rcases step_cases hs with ⟨r, ht, hmain, rfl⟩ | ⟨i, r, ht, -⟩ | ⟨o, r, ht, -⟩ | ⟨i, p, r, ht, -⟩ |
      ⟨r, hr, rfl⟩ | ⟨r, hr, -⟩ | ⟨i, p, r, hr, -⟩
    · obtain rfl := (List.cons.inj ht).2
      subst hmain
      have hu : u = 0 := by
        rcases hm with h | ⟨-, h⟩
        · cases h
        · exact h
      have := Inv.inside (c := c) (f := f) (d := d) (x0 := x0) (alls := alls) done
          (List.finRange m) a (List.finRange m) its [] work u x k 0 0
          (by rw [pending_nil work hw]; simpa using hits) (fun i _ => hw i)
          (fun j _ => List.mem_finRange _) (by simp [hk]) hl (.inr ⟨rfl, by simp [hu]⟩)
      simpa using this
    · cases ht
    · cases ht
    · cases ht
    · rcases hm with h | ⟨h, -⟩
      · rw [h] at hr
        cases hr
        exact .reset done a its [] work 0 x k hits hw hd hk hl (.inr ⟨rfl, rfl⟩)
      · rw [h] at hr; cases hr
    · rcases hm with h | ⟨h, -⟩ <;> rw [h] at hr <;> cases hr
    · rw [hw i] at hr; cases hr
  | inside done ws1 a ws2 its main work u x k S W hits hw ha hd hl hm =>
    rcases step_cases hs with ⟨r, ht, hmain, rfl⟩ | ⟨i, r, ht, hi, rfl⟩ | ⟨o, r, ht, -⟩ |
      ⟨i, p, r, ht, rfl⟩ | ⟨r, hr, rfl⟩ | ⟨r, hr, -⟩ | ⟨i, p, r, hr, rfl⟩
    · rcases mid_cons ht with ⟨_, _, _, h, _⟩ | ⟨_, _, _, _, h, _⟩ | ⟨_, _, _, _, _, h, _⟩ |
        ⟨rfl, rfl, rfl, -, rfl⟩
      · cases h
      · cases h
      · cases h
      · subst hmain
        have hu : u = (S.map fun p => c p x).sum := by
          rcases hm with ⟨h, -⟩ | ⟨-, h⟩
          · cases h
          · exact h
        refine .full done its work u x k S W ?_ (fun i => hw i (by simp)) hd hl hu
        rw [← hits, pending_nil work fun i => hw i (by simp)]
        simp [projections]
    · rcases mid_cons ht with ⟨_, ws, rfl, h, rfl⟩ | ⟨_, _, _, _, h, _⟩ |
        ⟨rfl, rfl, i', ws, rfl, h, rfl⟩ | ⟨_, _, _, h, _⟩
      · exact .inside done ws a ws2 its main work u x k S W hits hw ha hd hl hm
      · cases h
      · cases h
        refine .inside done [] [] ws its main work u x k S W hits ?_ (by simp) hd hl hm
        intro j hj
        by_cases e : j = i
        · rw [e, hi]
        · exact hw j (by simp [e, hj])
      · cases h
    · rcases mid_cons ht with ⟨_, _, _, h, _⟩ | ⟨_, _, _, _, h, _⟩ | ⟨_, _, _, _, _, h, _⟩ |
        ⟨_, _, _, h, _⟩ <;> cases h
    · rcases mid_cons ht with ⟨_, _, _, h, _⟩ | ⟨rfl, j, b, rfl, h, rfl⟩ | ⟨_, _, _, _, _, h, _⟩ |
        ⟨_, _, _, h, _⟩
      · cases h
      · cases h
        refine .inside done [] b ws2 its main _ u x k S W ?_ ?_ (fun y hy => ha y (by simp [hy])) hd hl hm
        · rw [← hits, pending_push]
          have : projections (j :: b) = {j.2} + projections b := rfl
          rw [this]
          congr 2
          abel
        · intro i hi
          have : i ≠ j.1 := fun e => hi (e ▸ ha j (by simp))
          rw [Function.update_of_ne this]
          exact hw i hi
      · cases h
      · cases h
    · rcases hm with ⟨h, rfl, -⟩ | ⟨h, -⟩
      · rw [h] at hr
        cases hr
        exact .inside done ws1 a ws2 its [] work 0 x k 0 W hits hw ha hd hl (.inr ⟨rfl, by simp⟩)
      · rw [h] at hr; cases hr
    · rcases hm with ⟨h, -⟩ | ⟨h, -⟩ <;> rw [h] at hr <;> cases hr
    · have hi2 : i ∈ ws2 := by
        by_contra hc
        rw [hw i hc] at hr
        cases hr
      have hw' : ∀ j, j ∉ ws2 → Function.update work i r j = [] := by
        intro j hj
        have : j ≠ i := fun e => hj (e ▸ hi2)
        rw [Function.update_of_ne this]
        exact hw j hj
      rw [pending_pop work i p r hr] at hits
      rcases hm with ⟨rfl, hS, hdf⟩ | ⟨rfl, hu⟩
      · have := Inv.inside (c := c) (f := f) (d := d) (x0 := x0) (alls := alls) done ws1 a ws2 its
          [.zero] (Function.update work i r) (u + c p x) x k S (W + {p})
          (by rw [← hits]; congr 2; abel) hw' ha (by simp [hdf]) hl (.inl ⟨rfl, hS, hdf⟩)
        simpa [Nat.add_assoc] using this
      · have := Inv.inside (c := c) (f := f) (d := d) (x0 := x0) (alls := alls) done ws1 a ws2 its
          [] (Function.update work i r) (u + c p x) x k (S + {p}) W
          (by rw [← hits]; congr 2; abel) hw' ha hd hl (.inr ⟨rfl, by simp [hu]⟩)
        simpa using this
  | full done its work u x k S W hits hw hd hl hu =>
    rcases step_cases hs with ⟨r, ht, -⟩ | ⟨i, r, ht, -⟩ | ⟨o, r, ht, rfl⟩ | ⟨i, p, r, ht, -⟩ |
      ⟨r, hr, -⟩ | ⟨r, hr, -⟩ | ⟨i, p, r, hr, -⟩
    · cases ht
    · cases ht
    · obtain ⟨h1, rfl⟩ := List.cons.inj ht
      cases h1
      refine .between (done ++ [S + W]) its [.apply] work u x _ (by rw [← hits]; simp) hw hd
        (.inr ⟨rfl, ?_⟩)
      rw [hu]
      exact .snoc S W hl
    · cases ht
    · cases hr
    · cases hr
    · rw [hw i] at hr; cases hr

theorem inv_steps {d : Bool} {x0 : V} {alls : List (Multiset P)} {s s' : Conf m P V}
    (hs : Steps c f s s') (h : Inv c f d x0 alls s) : Inv c f d x0 alls s' := by
  induction hs with
  | refl => exact h
  | tail _ hst ih => exact inv_step ih hst

theorem inv_done {d : Bool} {x0 : V} {alls : List (Multiset P)} {s : Conf m P V}
    (h : Inv c f d x0 alls s) (hd : s.Done) :
    Loses c f x0 alls s.wiped s.recon ∧ (d = true → s.wiped = 0) := by
  obtain ⟨h1, h2, -⟩ := hd
  cases h with
  | between done its main work u x k hits hw hd hm =>
    cases its with
    | nil =>
      simp only at h2
      rcases hm with ⟨-, hl⟩ | ⟨h, -⟩
      · simp only [List.map_nil, List.append_nil] at hits
        exact ⟨hits ▸ hl, hd⟩
      · rw [h] at h2; cases h2
    | cons a its => rw [program_cons] at h1; cases h1
  | fresh => cases h1
  | reset => cases h1
  | inside done ws1 a ws2 its main work u x k S W =>
    simp only [mid, List.append_eq_nil_iff] at h1
    exact absurd h1.2.2.2 (by simp)
  | full => cases h1

/-- **C132 (partial)** Every finished run, any number of iterations, streams and projections: each
iteration uses some of its projections, each of them once; the others, as many as were added before
the `memset` of their iteration ran, are missing. -/
theorem run_loses_partial (debug : Bool) (its : List (List (Fin m × P))) (u x : V) (s : Conf m P V)
    (h : Steps c f (start debug its u x) s) (hd : s.Done) :
    Loses c f x (its.map projections) s.wiped s.recon :=
  (inv_done (inv_steps h (inv_start debug its u x)) hd).1

/-- **C132 (partial)** Runs in which no projection is added before the `memset` compute the iterations
with all projections. -/
theorem run_exact_partial (debug : Bool) (its : List (List (Fin m × P))) (u x : V) (s : Conf m P V)
    (h : Steps c f (start debug its u x) s) (hd : s.Done) (hk : s.wiped = 0) :
    s.recon = (its.map projections).foldl (iterate c f) x :=
  (run_loses_partial debug its u x s h hd).exact hk

/-- **C132 (debug builds)** In a debug build, where `gpu_memset` waits for the main stream, every finished
run computes the iterations with all projections. -/
theorem debug_exact (its : List (List (Fin m × P))) (u x : V) (s : Conf m P V)
    (h : Steps c f (start true its u x) s) (hd : s.Done) :
    s.recon = (its.map projections).foldl (iterate c f) x :=
  run_exact_partial true its u x s h hd ((inv_done (inv_steps h (inv_start true its u x)) hd).2 rfl)

theorem Steps.add' {t : List (Cmd m P)} {main : List MOp} {work : Fin m → List P} {u x : V} {k : Nat}
    {s : Conf m P V} (h : Steps c f s ⟨t, main, work, u, x, k⟩) (i : Fin m) (p : P) (r : List P)
    (hw : work i = p :: r) :
    Steps c f s ⟨t, main, Function.update work i r, u + c p x, x,
      if MOp.zero ∈ main then k + 1 else k⟩ := h.tail (.add i p r t main work u x k hw)

/-- **C132 (refutation)** Release build, one iteration, one worker stream and two projections: the
`memset` runs between the two additions, and the first projection is lost, whatever it adds. -/
theorem release_loses (c : P → V → V) (f : V → V → V) (p q : P) (u x : V) :
    ∃ s : Conf 1 P V, Steps c f (start false [[(0, p), (0, q)]] u x) s ∧ s.Done ∧ s.wiped = 1 ∧
      s.recon = f x (c q x) := by
  have h0 : start (m := 1) false [[(0, p), (0, q)]] u x =
      ⟨[.syncMain, .issueMain .zero, .syncWorker 0, .issue 0 p, .issue 0 q, .syncWorker 0, .syncMain,
        .issueMain .apply], [], fun _ => [], u, x, 0⟩ := rfl
  have h1 : Steps c f (start (m := 1) false [[(0, p), (0, q)]] u x)
      ⟨[.syncWorker 0, .syncMain, .issueMain .apply], [.zero], Function.update (Function.update
        (fun _ => []) 0 [p]) 0 [p, q], u, x, 0⟩ := by
    rw [h0]
    refine .tail (.tail (.tail (.tail (.tail (.refl _) (.syncMain ..)) (.issueMain ..))
      (.syncWorker (h := rfl) ..)) (.issue ..)) ?_
    have := Step.issue (c := c) (f := f) 0 q [.syncWorker 0, .syncMain, .issueMain .apply] [.zero]
      (Function.update (fun _ => []) (0 : Fin 1) [p]) u x 0
    simpa using this
  have h2 := h1.add' 0 p [q] (by simp)
  have h3 := h2.tail (.zero ..)
  have h4 := h3.add' 0 q [] (by simp)
  have h5 := h4.tail (.syncWorker (h := by simp) ..)
  have h6 := h5.tail (.syncMain ..)
  have h7 := h6.tail (.issueMain ..)
  have h8 := h7.tail (.apply ..)
  refine ⟨_, h8, ⟨rfl, rfl, ?_⟩, ?_, ?_⟩
  · intro i
    obtain rfl : i = 0 := Subsingleton.elim _ _
    simp
  · simp
  · simp

/-- The difference is visible: one pixel, contributions 1 and 2, update by adding. -/
theorem release_wrong : ∃ s : Conf 1 Nat Int,
    Steps (fun (p : Nat) _ => (p : Int)) (· + ·) (start false [[(0, 1), (0, 2)]] 0 10) s ∧ s.Done ∧
      s.recon = 12 ∧ ([[((0 : Fin 1), 1), (0, 2)]].map projections).foldl
        (iterate (fun (p : Nat) _ => (p : Int)) (· + ·)) 10 = 13 := by
  obtain ⟨s, h1, h2, -, h3⟩ := release_loses (fun (p : Nat) _ => (p : Int)) (· + ·) 1 2 0 10
  exact ⟨s, h1, h2, by rw [h3]; rfl, by simp [projections, iterate]⟩

/-- A finished run of a debug build. -/
example : ∃ s : Conf 1 Nat Int,
    Steps (fun (p : Nat) _ => (p : Int)) (· + ·) (start true [[(0, 1)]] 0 10) s ∧ s.Done ∧
      s.recon = 11 := by
  have h0 : start (m := 1) true [[(0, 1)]] 0 10 =
      (⟨[.syncMain, .issueMain .zero, .syncMain, .syncWorker 0, .issue 0 1, .syncWorker 0, .syncMain,
        .issueMain .apply], [], fun _ => [], 0, 10, 0⟩ : Conf 1 Nat Int) := rfl
  have g := Steps.refl (c := fun (p : Nat) _ => (p : Int)) (f := (· + ·))
    (start (m := 1) true [[(0, 1)]] (0 : Int) 10)
  rw [h0] at g ⊢
  have h1 := (((((g.tail (.syncMain ..)).tail (.issueMain ..)).tail (.zero ..)).tail
    (.syncMain ..)).tail (.syncWorker (h := rfl) ..)).tail (.issue ..)
  have h2 := h1.add' 0 1 [] (by simp)
  have h3 := h2.tail (.syncWorker (h := by simp) ..)
  have h4 := ((h3.tail (.syncMain ..)).tail (.issueMain ..)).tail (.apply ..)
  refine ⟨_, h4, ⟨rfl, rfl, ?_⟩, by simp⟩
  intro i
  obtain rfl : i = 0 := Subsingleton.elim _ _
  simp

end Tomopy.Stream
