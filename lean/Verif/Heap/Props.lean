import Verif.Heap.Model
import Mathlib.Data.List.Nodup
import Mathlib.Tactic.SplitIfs
import Mathlib.Tactic.Linarith
import Mathlib.Algebra.BigOperators.Group.List.Basic

/-!
# No routine misuses the heap, and what each call leaves behind

`Kernel.prog` (Model) lists the heap operations of a call.  The specification is the machine
`run`: it stops on a use or a `free` of a pointer whose block is not live.  The theorems say that no
call of any routine stops, whatever the sizes and the state of the heap, and which blocks are left.
-/

set_option linter.unusedSectionVars false

namespace Tomopy.Heap

/-! ## Specification -/

/-- A heap of a running process: the live blocks have distinct addresses, all handed out
already. -/
structure St.WF (st : St) : Prop where
  nodup : (st.live.map Prod.fst).Nodup
  lt : ∀ b ∈ st.live, b.1 < st.next

/-- The bytes in live blocks. -/
def St.bytes (st : St) : Nat := (st.live.map Prod.snd).sum

/-- The sizes of the blocks a call leaves behind, by routine: one of `dy` floats for `grad` and
`tikh`, two of `ox + oz + 1` ints for `project2` and `project3`, one of five floats for `gridrec`;
none if the scan is empty, and none for the other routines. -/
def Kernel.leak : Kernel → List Nat
  | .grad c => if c.void then [] else [4 * c.dy]
  | .tikh c => if c.void then [] else [4 * c.dy]
  | .project2 c => if c.void then [] else [4 * (c.nx + c.ny + 1), 4 * (c.nx + c.ny + 1)]
  | .project3 c => if c.void then [] else [4 * (c.nx + c.ny + 1), 4 * (c.nx + c.ny + 1)]
  | .gridrec g => if g.dy = 0 ∨ g.dt = 0 ∨ g.dx = 0 then [] else [20]
  | _ => []

/-- The routines that give back all they take. -/
def Kernel.tidy : Kernel → Prop
  | .grad c => c.void
  | .tikh c => c.void
  | .project2 c => c.void
  | .project3 c => c.void
  | .gridrec g => g.dy = 0 ∨ g.dt = 0 ∨ g.dx = 0
  | _ => True

/-! ## Symbolic execution -/

/-- The variables whose block is live, with its size: what the symbolic run keeps. -/
abbrev Own := List (Var × Nat)

/-- Does the routine hold a block in `x`? -/
def Own.has (vs : Own) (x : Var) : Bool := vs.any fun e => e.1 == x

/-- One operation, on the variables held. -/
def astep (op : Op) (vs : Own) : Option Own :=
  match op with
  | .alloc x n => if Own.has vs x then none else some ((x, n) :: vs)
  | .free x => if Own.has vs x then some (vs.filter fun e => !(e.1 == x)) else none
  | .use x => if Own.has vs x then some vs else none

/-- A sequence of operations, on the variables held. -/
def arun : List Op → Own → Option Own
  | [], vs => some vs
  | op :: ops, vs => (astep op vs).bind (arun ops)

theorem arun_append (a b : List Op) (vs : Own) : arun (a ++ b) vs = (arun a vs).bind (arun b) := by
  induction a generalizing vs with
  | nil => rfl
  | cons op a ih =>
    simp only [List.cons_append, arun]
    cases astep op vs with
    | none => rfl
    | some v => simpa using ih v

theorem arun_flatMap {α : Type} (l : List α) (body : α → List Op) (vs : Own)
    (h : ∀ i ∈ l, arun (body i) vs = some vs) : arun (l.flatMap body) vs = some vs := by
  induction l with
  | nil => rfl
  | cons i l ih =>
    rw [List.flatMap_cons, arun_append, h i (by simp)]
    exact ih fun j hj => h j (by simp [hj])

/-- A loop whose body keeps the variables held keeps them. -/
theorem arun_loop (n : Nat) (body : Nat → List Op) (vs : Own)
    (h : ∀ i, arun (body i) vs = some vs) : arun (loop n body) vs = some vs :=
  arun_flatMap _ _ _ fun i _ => h i

/-- The heap `st` holds the blocks of the variables `vs` over the blocks `base`. -/
structure Holds (base : List (Nat × Nat)) (vs : Own) (st : St) (a : Var → Nat) : Prop where
  wf : st.WF
  keys : (vs.map Prod.fst).Nodup
  env : ∀ e ∈ vs, st.env e.1 = some (a e.1)
  live : st.live.Perm (vs.map (fun e => (a e.1, e.2)) ++ base)

theorem has_iff (vs : Own) (x : Var) : Own.has vs x = true ↔ ∃ e ∈ vs, e.1 = x := by
  simp [Own.has]

theorem Holds.isLive {base : List (Nat × Nat)} {vs : Own} {st : St} {a : Var → Nat}
    (h : Holds base vs st a) {x : Var} (hx : Own.has vs x = true) :
    st.env x = some (a x) ∧ st.isLive (st.env x) = true := by
  obtain ⟨e, he, rfl⟩ := (has_iff _ _).1 hx
  refine ⟨h.env e he, ?_⟩
  rw [St.isLive, List.any_eq_true]
  refine ⟨(a e.1, e.2), ?_, by simp [h.env e he]⟩
  refine h.live.mem_iff.2 (List.mem_append_left _ ?_)
  exact List.mem_map.2 ⟨e, he, rfl⟩

/-- One step: what the symbolic run allows, the heap does. -/
theorem step_sound {base : List (Nat × Nat)} {vs vs' : Own} {st : St} {a : Var → Nat} {op : Op}
    (h : Holds base vs st a) (ha : astep op vs = some vs') :
    ∃ st' a', step op st = some st' ∧ Holds base vs' st' a' := by
  cases op with
  | alloc x n =>
    simp only [astep] at ha
    split_ifs at ha with hx
    obtain rfl := Option.some.inj ha
    have hx' : ∀ e ∈ vs, e.1 ≠ x := fun e he hex => hx ((has_iff _ _).2 ⟨e, he, hex⟩)
    refine ⟨_, fun y => if y = x then st.next else a y, rfl, ⟨⟨?_, ?_⟩, ?_, ?_, ?_⟩⟩
    · simp only [List.map_cons, List.nodup_cons]
      refine ⟨?_, h.wf.nodup⟩
      intro hm
      obtain ⟨b, hb, hb'⟩ := List.mem_map.1 hm
      exact absurd (h.wf.lt b hb) (by omega)
    · intro b hb
      rcases List.mem_cons.1 hb with rfl | hb
      · exact Nat.lt_succ_self _
      · exact Nat.lt_succ_of_lt (h.wf.lt b hb)
    · simp only [List.map_cons, List.nodup_cons]
      refine ⟨?_, h.keys⟩
      intro hm
      obtain ⟨e, he, hex⟩ := List.mem_map.1 hm
      exact hx' e he hex
    · intro e he
      rcases List.mem_cons.1 he with rfl | he
      · simp
      · simp [hx' e he, h.env e he]
    · simp only [List.map_cons, if_true, List.cons_append]
      refine List.Perm.cons _ ?_
      have : vs.map (fun e => ((if e.1 = x then st.next else a e.1), e.2))
          = vs.map (fun e => (a e.1, e.2)) :=
        List.map_congr_left fun e he => by simp [hx' e he]
      rw [this]
      exact h.live
  | use x =>
    simp only [astep] at ha
    split_ifs at ha with hx
    obtain rfl := Option.some.inj ha
    exact ⟨st, a, by simp [step, (h.isLive hx).2], h⟩
  | free x =>
    simp only [astep] at ha
    split_ifs at ha with hx
    obtain rfl := Option.some.inj ha
    obtain ⟨hex, hl⟩ := h.isLive hx
    have hnd : ((vs.map (fun e => (a e.1, e.2)) ++ base).map Prod.fst).Nodup :=
      (h.live.map Prod.fst).nodup_iff.1 h.wf.nodup
    rw [List.map_append, List.nodup_append] at hnd
    obtain ⟨h1, -, h3⟩ := hnd
    obtain ⟨e0, he0, he0x⟩ := (has_iff _ _).1 hx
    have hax : a x ∈ (vs.map (fun e => (a e.1, e.2))).map Prod.fst := by
      rw [List.map_map]
      exact List.mem_map.2 ⟨e0, he0, by simp [he0x]⟩
    have hinj : ∀ e ∈ vs, a x = a e.1 → e.1 = x := by
      intro e he hae
      by_contra hne
      rw [List.map_map] at h1
      have := List.inj_on_of_nodup_map h1 he he0 (by simp [he0x, hae])
      exact hne (this ▸ he0x)
    refine ⟨{ st with live := st.live.filter fun b => !(st.env x == some b.1) }, a,
      by simp only [step, hl, if_true], ⟨⟨?_, ?_⟩, ?_, ?_, ?_⟩⟩
    · exact h.wf.nodup.sublist (List.Sublist.map _ List.filter_sublist)
    · intro b hb
      exact h.wf.lt b (List.mem_of_mem_filter hb)
    · exact h.keys.sublist (List.Sublist.map _ List.filter_sublist)
    · intro e he
      exact h.env e (List.mem_of_mem_filter he)
    · refine (h.live.filter _).trans ?_
      rw [List.filter_append, List.filter_map, hex]
      have hb : base.filter (fun b => !(some (a x) == some b.1)) = base := by
        rw [List.filter_eq_self]
        intro b hb
        have := h3 (a x) hax b.1 (List.mem_map.2 ⟨b, hb, rfl⟩)
        simpa using this
      rw [hb]
      have hv : vs.filter ((fun b : Nat × Nat => !(some (a x) == some b.1)) ∘ fun e => (a e.1, e.2))
          = vs.filter (fun e => !(e.1 == x)) := by
        apply List.filter_congr
        intro e he
        simp only [Function.comp]
        by_cases hc : e.1 = x
        · simp [hc]
        · have : a x ≠ a e.1 := fun hae => hc (hinj e he hae)
          simp [hc, this]
      rw [hv]

theorem run_sound {base : List (Nat × Nat)} (ops : List Op) {vs vs' : Own} {st : St}
    {a : Var → Nat} (h : Holds base vs st a) (ha : arun ops vs = some vs') :
    ∃ st' a', run ops st = some st' ∧ Holds base vs' st' a' := by
  induction ops generalizing vs st a with
  | nil =>
    obtain rfl := Option.some.inj ha
    exact ⟨st, a, rfl, h⟩
  | cons op ops ih =>
    simp only [arun] at ha
    cases hs : astep op vs with
    | none => simp [hs] at ha
    | some v =>
      rw [hs] at ha
      obtain ⟨st1, a1, h1, hh⟩ := step_sound h hs
      obtain ⟨st2, a2, h2, hh2⟩ := ih hh ha
      exact ⟨st2, a2, by simp [run, h1, h2], hh2⟩

/-! ## The routines -/

theorem arun_seq {a b : List Op} {u v w : Own} (h1 : arun a u = some v) (h2 : arun b v = some w) :
    arun (a ++ b) u = some w := by
  rw [arun_append, h1]; exact h2

theorem arun_if {P : Prop} [Decidable P] {a b : List Op} {u v : Own}
    (h1 : P → arun a u = some v) (h2 : ¬P → arun b u = some v) :
    arun (if P then a else b) u = some v := by
  split_ifs with h
  · exact h1 h
  · exact h2 h

theorem arun_keep {a b : List Op} {u : Own} (h1 : arun a u = some u) (h2 : arun b u = some u) :
    arun (a ++ b) u = some u := arun_seq h1 h2

theorem has_cons (y x : Var) (n : Nat) (vs : Own) :
    Own.has ((y, n) :: vs) x = (y == x || Own.has vs x) := rfl

theorem has_nil (x : Var) : Own.has [] x = false := rfl

theorem filter_absent {vs : Own} {x : Var} (h : Own.has vs x = false) :
    vs.filter (fun e => !(e.1 == x)) = vs := by
  rw [List.filter_eq_self]
  intro e he
  simp only [Own.has, List.any_eq_false] at h
  simpa using h e he

/-- Reading and writing through variables held. -/
theorem arun_uses (xs : List Var) (vs : Own) (h : xs.all (Own.has vs) = true) :
    arun (uses xs) vs = some vs := by
  induction xs with
  | nil => rfl
  | cons x xs ih =>
    simp only [List.all_cons, Bool.and_eq_true] at h
    simp only [uses, List.map_cons, arun, astep, h.1, if_true, Option.bind_some]
    exact ih h.2

theorem arun_alloc {x : Var} {n : Nat} {ops : List Op} {vs w : Own} (h : Own.has vs x = false)
    (h2 : arun ops ((x, n) :: vs) = some w) : arun (.alloc x n :: ops) vs = some w := by
  simp only [arun, astep, h, Bool.false_eq_true, if_false, Option.bind_some]
  exact h2

/-- Freeing the block taken last. -/
theorem arun_free_head {x : Var} {n : Nat} {ops : List Op} {vs w : Own} (h : Own.has vs x = false)
    (h2 : arun ops vs = some w) : arun (.free x :: ops) ((x, n) :: vs) = some w := by
  simp only [arun, astep, has_cons, beq_self_eq_true, Bool.true_or, if_true, Option.bind_some]
  rw [List.filter_cons]
  simp only [beq_self_eq_true, Bool.not_true, Bool.false_eq_true, if_false, filter_absent h]
  exact h2

/-- Two scratch blocks, used and freed. -/
theorem arun_scratch {x y : Var} {n m : Nat} {ops : List Op} {vs : Own} (hxy : x ≠ y)
    (hx : Own.has vs x = false) (hy : Own.has vs y = false)
    (h : arun ops ((y, m) :: (x, n) :: vs) = some ((y, m) :: (x, n) :: vs)) :
    arun ([.alloc x n, .alloc y m] ++ ops ++ frees [x, y]) vs = some vs := by
  have hyx : (x == y) = false := by simpa using hxy
  have hyx' : (y == x) = false := by simpa using hxy.symm
  rw [List.append_assoc]
  change arun (.alloc x n :: .alloc y m :: (ops ++ frees [x, y])) vs = some vs
  refine arun_alloc hx (arun_alloc ?_ (arun_seq h ?_))
  · simp [has_cons, hy, hyx]
  · simp only [frees, List.map, arun, astep, has_cons, hyx', beq_self_eq_true, Bool.true_or,
      Bool.or_true, if_true, Option.bind_some, List.filter_cons, Bool.not_false, Bool.not_true,
      Bool.false_eq_true, if_false, filter_absent hx, filter_absent hy]

/-- A decidable check that a call of `calc_dist` fits the variables held. -/
def rayFits (vs : Own) : Bool :=
  Own.has vs .coorx && Own.has vs .coory && Own.has vs .dist && Own.has vs .indi &&
  !Own.has vs .diffx && !Own.has vs .diffy && !Own.has vs .lindx && !Own.has vs .lindy

theorem arun_calcDist (n : Nat) (vs : Own) (h : rayFits vs = true) :
    arun (calcDist n) vs = some vs := by
  simp only [rayFits, Bool.and_eq_true, Bool.not_eq_true'] at h
  obtain ⟨⟨⟨⟨⟨⟨⟨h1, h2⟩, h3⟩, h4⟩, h5⟩, h6⟩, h7⟩, h8⟩ := h
  refine arun_if (fun _ => rfl) fun _ => ?_
  rw [List.append_assoc, List.append_assoc]
  refine arun_keep (arun_scratch (by decide) h5 h6 (arun_uses _ _ ?_))
    (by rw [← List.append_assoc]
        exact arun_scratch (by decide) h7 h8 (arun_uses _ _ (by simp [has_cons, h1, h2, h4])))
  simp [has_cons, h1, h2, h3]

/-- The buffers of the ray tracer, as held. -/
def rayOwn (nx ny : Nat) : Own :=
  [(.indi, 4 * (nx + ny)), (.dist, 4 * (nx + ny)), (.coory, 4 * (nx + ny)),
   (.coorx, 4 * (nx + ny)), (.«by», 4 * (nx + ny)), (.bx, 4 * (nx + ny)),
   (.ay, 4 * (nx + ny)), (.ax, 4 * (nx + ny)), (.coordy, 4 * (nx + 1)),
   (.coordx, 4 * (ny + 1)), (.gridy, 4 * (ny + 1)), (.gridx, 4 * (nx + 1))]

/-- Freeing a list of distinct variables held. -/
theorem arun_frees (xs : List Var) (vs : Own) (hn : xs.Nodup)
    (h : xs.all (Own.has vs) = true) :
    arun (frees xs) vs = some (vs.filter fun e => !(xs.contains e.1)) := by
  induction xs generalizing vs with
  | nil => simp [frees, arun]
  | cons x xs ih =>
    simp only [List.all_cons, Bool.and_eq_true] at h
    rw [List.nodup_cons] at hn
    simp only [frees, List.map_cons, arun, astep, h.1, if_true, Option.bind_some]
    have := ih (vs.filter fun e => !(e.1 == x)) hn.2 ?_
    · rw [frees] at this
      rw [this, List.filter_filter]
      congr 2
      funext e
      by_cases hx : e.1 = x
      · simp [hx]
      · simp [hx]
    · rw [List.all_eq_true] at h ⊢
      intro y hy
      obtain ⟨e, he, rfl⟩ := (has_iff _ _).1 (h.2 y hy)
      refine (has_iff _ _).2 ⟨e, List.mem_filter.2 ⟨he, ?_⟩, rfl⟩
      have : e.1 ≠ x := fun hex => hn.1 (hex ▸ hy)
      simpa using this

theorem arun_frees' (xs : List Var) (vs w : Own) (hn : xs.Nodup)
    (h : xs.all (Own.has vs) = true) (hw : (vs.filter fun e => !(xs.contains e.1)) = w) :
    arun (frees xs) vs = some w := hw ▸ arun_frees xs vs hn h

/-- Allocations of a routine. -/
macro "heap_alloc" : tactic => `(tactic| (
  repeat refine arun_alloc rfl ?_
  rfl))

/-- Frees of a routine. -/
macro "heap_free" : tactic => `(tactic| exact arun_frees' _ _ _ (by decide) rfl rfl)

/-- Code that neither takes nor gives back anything in the end. -/
macro "heap_keep" : tactic => `(tactic| (
  repeat' first
    | with_reducible refine arun_keep ?_ ?_
    | with_reducible refine arun_loop _ _ _ (fun _ => ?_)
    | with_reducible refine arun_uses _ _ ?_
    | with_reducible refine arun_calcDist _ _ ?_
  all_goals rfl))

/-- The variables held by `art`. -/
def artOwn (c : Scan) : Own := (.simdata, 4 * (c.dy * c.dt * c.dx)) :: rayOwn c.nx c.ny

theorem arun_art (c : Scan) : arun (art c) [] = some [] := by
  refine arun_if (fun _ => rfl) fun _ => ?_
  refine arun_seq (v := artOwn c) (arun_seq (v := artOwn c) (by heap_alloc) ?_) (by heap_free)
  simp only [ray, traceUses]
  heap_keep

/-- The variables held by `bart` and `osem`. -/
def bartOwn (c : Scan) : Own := (.update, 4 * (c.nx * c.ny)) :: (.sumDist, 4 * (c.nx * c.ny)) ::
      (.simdata, 4 * (c.dy * c.dt * c.dx)) :: rayOwn c.nx c.ny

theorem arun_bart (c : Scan) : arun (bart c) [] = some [] := by
  refine arun_if (fun _ => rfl) fun _ => ?_
  refine arun_seq (v := bartOwn c) (arun_seq (v := bartOwn c) (by heap_alloc) ?_) (by heap_free)
  simp only [ray, traceUses]
  heap_keep

theorem arun_fbp (c : Scan) : arun (fbp c) [] = some [] := by
  refine arun_if (fun _ => rfl) fun _ => ?_
  refine arun_seq (v := rayOwn c.nx c.ny)
    (arun_seq (v := rayOwn c.nx c.ny) (by heap_alloc) ?_) (by heap_free)
  simp only [ray, traceUses]
  heap_keep

/-- The variables held by `ospml` inside an iteration. -/
def ospmlOwn (c : Scan) : Own := (.simdata, 4 * (c.dt * c.dy * c.dx)) :: rayOwn c.nx c.ny

/-- The variables held by `ospml` inside a subset. -/
def ospmlOwn' (c : Scan) : Own :=
  (.G, 4 * (c.nx * c.ny)) :: (.F, 4 * (c.nx * c.ny)) ::
      (.E, 4 * (c.nx * c.ny)) :: (.sumDist, 4 * (c.nx * c.ny)) :: ospmlOwn c

theorem arun_ospml (c : Scan) : arun (ospml c) [] = some [] := by
  refine arun_if (fun _ => rfl) fun _ => ?_
  refine arun_seq (v := rayOwn c.nx c.ny)
    (arun_seq (v := rayOwn c.nx c.ny) (by heap_alloc) ?_) (by heap_free)
  refine arun_loop _ _ _ fun i => ?_
  refine arun_seq (v := ospmlOwn c) (arun_seq (v := ospmlOwn c) (by heap_alloc) ?_) (by heap_free)
  refine arun_loop _ _ _ fun s => arun_keep (by heap_keep) (arun_loop _ _ _ fun os => ?_)
  refine arun_seq (v := ospmlOwn' c) ?_ (by heap_free)
  rw [List.append_assoc]
  refine arun_seq (v := ospmlOwn' c) (by heap_alloc) ?_
  simp only [ray, traceUses]
  heap_keep

/-- The variables held by `grad` and `tikh`. -/
def gradOwn (c : Scan) : Own :=
  (.lambda, 4 * c.dy) :: (.recon0, 4 * (c.dy * c.nx * c.ny)) ::
      (.grad0, 4 * (c.dy * c.nx * c.ny)) :: (.grad, 4 * (c.dy * c.nx * c.ny)) ::
      (.prox1, 4 * (c.dy * c.dt * c.dx)) :: (.sumDist, 4 * (c.nx * c.ny)) ::
      (.simdata, 4 * (c.dy * c.dt * c.dx)) :: rayOwn c.nx c.ny

theorem arun_grad (c : Scan) :
    arun (grad c) [] = some (if c.void then [] else [(.lambda, 4 * c.dy)]) := by
  unfold grad
  split_ifs with hc
  · rfl
  refine arun_seq (v := gradOwn c) ?_ (by heap_free)
  rw [List.append_assoc]
  refine arun_seq (v := gradOwn c) (by heap_alloc) ?_
  simp only [ray, traceUses]
  heap_keep

/-- The variables held by `tv`. -/
def tvOwn (c : Scan) : Own :=
  (.adjdata, 4 * (c.dy * c.nx * c.ny)) :: (.prox1, 4 * (c.dy * c.dt * c.dx)) ::
      (.prox0y, 4 * (c.dy * c.nx * c.ny)) :: (.prox0x, 4 * (c.dy * c.nx * c.ny)) ::
      (.update, 4 * (c.dy * c.nx * c.ny)) :: (.sumDist, 4 * (c.nx * c.ny)) ::
      (.simdata, 4 * (c.dy * c.dt * c.dx)) :: rayOwn c.nx c.ny

theorem arun_tv (c : Scan) : arun (tv c) [] = some [] := by
  refine arun_if (fun _ => rfl) fun _ => ?_
  refine arun_seq (v := tvOwn c) ?_ (by heap_free)
  rw [List.append_assoc]
  refine arun_seq (v := tvOwn c) (by heap_alloc) ?_
  simp only [ray, traceUses]
  heap_keep

/-- The buffers of the vector routines, as held. -/
def vectorOwn (nx ny : Nat) : Own :=
  [(.indy, 4 * (nx + ny + 1)), (.indx, 4 * (nx + ny + 1)), (.dist, 4 * (nx + ny)),
   (.coory, 4 * (nx + ny)),
   (.coorx, 4 * (nx + ny)), (.«by», 4 * (nx + ny)), (.bx, 4 * (nx + ny)),
   (.ay, 4 * (nx + ny)), (.ax, 4 * (nx + ny)), (.coordy, 4 * (nx + 1)),
   (.coordx, 4 * (ny + 1)), (.gridy, 4 * (ny + 1)), (.gridx, 4 * (nx + 1))]

/-- The variables held by the vector routines inside a pass. -/
def vectorOwn' (c : Scan) : Own :=
  (.simdata, 4 * (c.dt * c.dy * c.dx)) :: vectorOwn c.nx c.ny

/-- The variables held by the vector routines inside a slice. -/
def vectorOwn'' (c : Scan) : Own :=
  (.update2, 4 * (c.nx * c.ny)) :: (.update1, 4 * (c.nx * c.ny)) ::
      (.sumDist, 4 * (c.nx * c.ny)) :: vectorOwn' c

theorem arun_vectorN (k : Nat) (c : Scan) : arun (vectorN k c) [] = some [] := by
  refine arun_seq (v := vectorOwn c.nx c.ny) (arun_seq (v := vectorOwn c.nx c.ny)
    (by heap_alloc) ?_) (by heap_free)
  refine arun_loop _ _ _ fun i => arun_loop _ _ _ fun _ => ?_
  refine arun_seq (v := vectorOwn' c) (arun_seq (v := vectorOwn' c) (by heap_alloc) ?_)
    (by heap_free)
  refine arun_loop _ _ _ fun s => ?_
  refine arun_seq (v := vectorOwn'' c) ?_ (by heap_free)
  rw [List.append_assoc, List.append_assoc]
  refine arun_seq (v := vectorOwn' c) (by heap_keep) ?_
  refine arun_seq (v := vectorOwn'' c) (by heap_alloc) ?_
  simp only [ray2, traceUses]
  heap_keep

/-- The buffers of `project`, as held. -/
def projectOwn (nx ny : Nat) : Own :=
  [(.indi, 4 * (nx + ny + 1)), (.dist, 4 * (nx + ny + 1)), (.coory, 4 * (nx + ny + 2)),
   (.coorx, 4 * (nx + ny + 2)), (.«by», 4 * (nx + ny + 2)), (.bx, 4 * (nx + ny + 2)),
   (.ay, 4 * (nx + ny + 2)), (.ax, 4 * (nx + ny + 2)), (.coordy, 4 * (nx + 1)),
   (.coordx, 4 * (ny + 1)), (.gridy, 4 * (ny + 1)), (.gridx, 4 * (nx + 1))]

theorem arun_project (c : Scan) : arun (project c) [] = some [] := by
  refine arun_if (fun _ => rfl) fun _ => ?_
  refine arun_seq (v := projectOwn c.nx c.ny) ?_ (by heap_free)
  rw [List.append_assoc]
  refine arun_seq (v := projectOwn c.nx c.ny) (by heap_alloc) ?_
  simp only [ray, traceUses]
  heap_keep

/-- The buffers of `project2`, as held. -/
def projectOwn2 (nx ny : Nat) : Own :=
  [(.indi, 4 * (nx + ny + 1)), (.indy, 4 * (nx + ny + 1)), (.indx, 4 * (nx + ny + 1)),
   (.dist, 4 * (nx + ny + 1)), (.coory, 4 * (nx + ny + 2)),
   (.coorx, 4 * (nx + ny + 2)), (.«by», 4 * (nx + ny + 2)), (.bx, 4 * (nx + ny + 2)),
   (.ay, 4 * (nx + ny + 2)), (.ax, 4 * (nx + ny + 2)), (.coordy, 4 * (nx + 1)),
   (.coordx, 4 * (ny + 1)), (.gridy, 4 * (ny + 1)), (.gridx, 4 * (nx + 1))]

theorem arun_project2 (c : Scan) :
    arun (project2 c) [] = some (if c.void then []
      else [(.indy, 4 * (c.nx + c.ny + 1)), (.indx, 4 * (c.nx + c.ny + 1))]) := by
  unfold project2
  split_ifs with hc
  · rfl
  refine arun_seq (v := projectOwn2 c.nx c.ny) ?_ (by heap_free)
  rw [List.append_assoc]
  refine arun_seq (v := projectOwn2 c.nx c.ny) (by heap_alloc) ?_
  simp only [ray2, traceUses]
  heap_keep

theorem arun_use {x : Var} {ops : List Op} {vs w : Own} (h : Own.has vs x = true)
    (h2 : arun ops vs = some w) : arun (.use x :: ops) vs = some w := by
  simp only [arun, astep, h, if_true, Option.bind_some]
  exact h2

/-- The buffers of `gridrec` when the FFT plans are made, as held. -/
def gridOwn (g : GridScan) : Own :=
  [(.cose, 4 * g.dt), (.sine, 4 * g.dt), (.work2, 4 * 5), (.work, 4 * 5),
   (.V0, 8 * (g.dt * g.pdim)), (.Vd, 8 * g.dt), (.U0, 8 * (g.dt * g.pdim)), (.Ud, 8 * g.dt),
   (.Pz, 4 * (g.pdim / 2 * g.dt)), (.Jz, 4 * (g.pdim / 2 * g.dt)),
   (.winv, 4 * (g.pdim - 1)), (.wtbl, 4 * 513),
   (.H0, 8 * (g.pdim * g.pdim)), (.H, 8 * g.pdim),
   (.filphase, 8 * (if g.filter2d then g.dt * (g.pdim / 2) else g.pdim / 2)),
   (.sino, 8 * g.pdim)]

/-- The buffers and plans of `gridrec`, as held. -/
def gridOwn' (g : GridScan) : Own := (.plan2, g.plan2) :: (.plan1, g.plan1) :: gridOwn g

theorem arun_freeMatrix (m m0 : Var) (vs w : Own) (hm : m0 ≠ m) (h : Own.has vs m = true)
    (h0 : Own.has vs m0 = true) (hw : (vs.filter fun e => !([m0, m].contains e.1)) = w) :
    arun (freeMatrix m m0) vs = some w :=
  arun_use h (arun_frees' [m0, m] vs w (by simpa using hm) (by simp [h, h0]) hw)

/-- What `gridrec` still holds after the first seven frees. -/
def gridOwn1 (g : GridScan) : Own :=
  [(.plan2, g.plan2), (.plan1, g.plan1), (.work2, 4 * 5),
   (.V0, 8 * (g.dt * g.pdim)), (.Vd, 8 * g.dt), (.U0, 8 * (g.dt * g.pdim)), (.Ud, 8 * g.dt),
   (.Pz, 4 * (g.pdim / 2 * g.dt)), (.Jz, 4 * (g.pdim / 2 * g.dt)),
   (.H0, 8 * (g.pdim * g.pdim)), (.H, 8 * g.pdim)]

/-- What `gridrec` still holds after `H`, `J_z` and `P_z` are freed. -/
def gridOwn2 (g : GridScan) : Own :=
  [(.plan2, g.plan2), (.plan1, g.plan1), (.work2, 4 * 5),
   (.V0, 8 * (g.dt * g.pdim)), (.Vd, 8 * g.dt), (.U0, 8 * (g.dt * g.pdim)), (.Ud, 8 * g.dt)]

theorem arun_gridrec (g : GridScan) :
    arun (gridrec g) [] = some (if g.dy = 0 ∨ g.dt = 0 ∨ g.dx = 0 then []
      else [(.work2, 20)]) := by
  unfold gridrec
  by_cases hc : g.dy = 0 ∨ g.dt = 0 ∨ g.dx = 0
  · rw [if_pos hc, if_pos hc]; rfl
  rw [if_neg hc, if_neg hc]
  have h1 : arun ([.alloc .sino (8 * g.pdim),
     .alloc .filphase (8 * (if g.filter2d then g.dt * (g.pdim / 2) else g.pdim / 2))] ++
    mallocMatrix .H .H0 g.pdim g.pdim ++
    [.alloc .wtbl (4 * 513), .alloc .winv (4 * (g.pdim - 1)),
     .alloc .Jz (4 * (g.pdim / 2 * g.dt)), .alloc .Pz (4 * (g.pdim / 2 * g.dt))] ++
    mallocMatrix .Ud .U0 g.dt g.pdim ++ mallocMatrix .Vd .V0 g.dt g.pdim ++
    [.alloc .work (4 * 5), .alloc .work2 (4 * 5)] ++
    [.alloc .sine (4 * g.dt), .alloc .cose (4 * g.dt)]) [] = some (gridOwn g) := by
    simp only [mallocMatrix, List.cons_append, List.nil_append]
    repeat first
      | with_reducible refine arun_alloc rfl ?_
      | with_reducible refine arun_use rfl ?_
    rfl
  refine arun_seq (v := [(.plan2, g.plan2), (.plan1, g.plan1), (.work2, 4 * 5)]) ?_ (by heap_free)
  refine arun_seq (v := [(.plan2, g.plan2), (.plan1, g.plan1), (.work2, 4 * 5),
    (.V0, 8 * (g.dt * g.pdim)), (.Vd, 8 * g.dt)]) ?_ (arun_freeMatrix _ _ _ _ (by decide) rfl rfl rfl)
  refine arun_seq (v := gridOwn2 g) ?_ (arun_freeMatrix _ _ _ _ (by decide) rfl rfl rfl)
  refine arun_seq (v := (gridOwn1 g).take 9) ?_ (by heap_free)
  refine arun_seq (v := gridOwn1 g) ?_ (arun_freeMatrix _ _ _ _ (by decide) rfl rfl rfl)
  refine arun_seq (v := gridOwn' g) ?_ (by heap_free)
  refine arun_seq (v := gridOwn' g) (arun_seq (v := gridOwn' g) (arun_seq (v := gridOwn' g)
    (arun_seq (v := gridOwn g) (arun_seq h1 ?_) ?_) ?_) ?_) ?_
  · heap_keep
  · heap_alloc
  all_goals heap_keep

theorem arun_medianFilter (v w b : Nat) : arun (medianFilter v w b) [] = some [] :=
  arun_loop _ _ _ fun _ => rfl

/-- The buffers of the inpainter, as held. -/
def inpaintOwn (c : InpaintScan) : Own :=
  [(.gauss, 4 * c.window), (.mUpd, c.voxels), (.updated, 4 * c.voxels)]

theorem arun_sweep (c : InpaintScan) :
    arun (inpaintSweep c) (inpaintOwn c) = some (inpaintOwn c) :=
  arun_loop _ _ _ fun _ => arun_if (fun _ => rfl) fun _ => rfl

theorem arun_inpaint (c : InpaintScan) : arun (inpaint c) [] = some [] := by
  refine arun_seq (v := inpaintOwn c) rfl (arun_if (fun _ => rfl) fun _ => ?_)
  refine arun_seq (v := inpaintOwn c) (arun_keep (arun_keep (arun_keep ?_ ?_) ?_) ?_) rfl
  · exact arun_loop _ _ _ fun _ => arun_keep (arun_sweep c) rfl
  · exact arun_if (fun _ => rfl) fun _ => rfl
  · exact arun_loop _ _ _ fun _ => arun_keep (arun_keep rfl (arun_sweep c)) rfl
  · exact arun_if (fun _ => rfl) fun _ => rfl

theorem arun_stripesDetect (v w : Nat) : arun (stripesDetect v w) [] = some [] := by
  refine arun_seq (v := [(.temp3d, 4 * v)]) (arun_seq (v := [(.temp3d, 4 * v)]) (arun_seq rfl ?_) ?_)
    rfl
  · exact arun_loop _ _ _ fun _ => rfl
  · exact arun_loop _ _ _ fun _ => rfl

theorem arun_stripesMask (v m : Nat) : arun (stripesMask v m) [] = some [] := by
  refine arun_seq (v := [(.mask, v)]) (arun_seq (v := [(.mask, v)]) (arun_seq rfl ?_) ?_) rfl
  · exact arun_loop _ _ _ fun _ => rfl
  · exact arun_loop _ _ _ fun _ => arun_loop _ _ _ fun _ => rfl

theorem arun_stripeSf (a b c : Nat) : arun (stripeSf a b c) [] = some [] := by
  refine arun_loop _ _ _ fun _ => ?_
  refine arun_seq (v := [(.smoothRow, 4 * c), (.averageRow, 4 * c)]) (arun_seq (arun_seq rfl
    (arun_loop _ _ _ fun _ => rfl)) (arun_loop _ _ _ fun _ => rfl)) rfl

/-- The buffers of `remove_ring` around `ring_filter`, as held. -/
def ringOwn (c : RingScan) : Own :=
  [(.polar, 8 * c.polHeight), (.polar0, 4 * (c.polHeight * c.polWidth)), (.image, 8 * c.dy)]

/-- The buffers of `remove_ring` inside `ring_filter`, as held. -/
def ringOwn' (c : RingScan) : Own :=
  (.filtered, 8 * c.polHeight) :: (.filtered0, 4 * (c.polHeight * c.polWidth)) :: ringOwn c

theorem arun_medianFast (c : RingScan) (r : Nat) :
    arun (medianFast r) (ringOwn' c) = some (ringOwn' c) :=
  arun_scratch (by decide) rfl rfl (arun_uses _ _ rfl)

theorem arun_removeRing (c : RingScan) : arun (removeRing c) [] = some [] := by
  refine arun_seq (v := [(.image, 8 * c.dy)]) (arun_seq rfl ?_) rfl
  refine arun_loop _ _ _ fun _ => ?_
  refine arun_seq (v := (.ring, 8 * c.dy) :: (.ring0, 4 * (c.dy * c.dx)) :: ringOwn c)
    (arun_seq (v := (.ring, 8 * c.dy) :: (.ring0, 4 * (c.dy * c.dx)) :: ringOwn c)
    (arun_seq (v := ringOwn c) (arun_seq (v := ringOwn' c) (arun_seq (v := ringOwn' c)
    (arun_seq (v := ringOwn' c) (arun_seq (v := ringOwn' c) (arun_seq (v := ringOwn' c)
    (arun_seq (v := ringOwn' c) (arun_seq (v := ringOwn c) (arun_seq (v := ringOwn c)
    (arun_seq (v := [(.image, 8 * c.dy)]) (arun_seq (v := [(.image, 8 * c.dy)])
      rfl rfl) rfl) ?_) ?_) ?_) ?_) ?_) ?_) ?_) ?_) ?_) ?_) ?_
  · heap_keep
  · heap_alloc
  · heap_keep
  · exact arun_medianFast c _
  · exact arun_medianFast c _
  · exact arun_medianFast c _
  · heap_keep
  · heap_free
  · heap_alloc
  · heap_keep
  · exact arun_use rfl (arun_seq (a := frees [.polar0, .polar]) (b := .use .ring :: frees [.ring0, .ring])
      (arun_frees' _ _ _ (by decide) rfl rfl)
      (arun_use rfl (arun_frees' _ _ _ (by decide) rfl rfl)))

/-- The variables still held when a call returns. -/
def Kernel.left : Kernel → Own
  | .grad c => if c.void then [] else [(.lambda, 4 * c.dy)]
  | .tikh c => if c.void then [] else [(.lambda, 4 * c.dy)]
  | .project2 c => if c.void then []
      else [(.indy, 4 * (c.nx + c.ny + 1)), (.indx, 4 * (c.nx + c.ny + 1))]
  | .project3 c => if c.void then []
      else [(.indy, 4 * (c.nx + c.ny + 1)), (.indx, 4 * (c.nx + c.ny + 1))]
  | .gridrec g => if g.dy = 0 ∨ g.dt = 0 ∨ g.dx = 0 then [] else [(.work2, 20)]
  | _ => []

theorem arun_prog (k : Kernel) : arun k.prog [] = some k.left := by
  cases k with
  | art c => exact arun_art c
  | bart c => exact arun_bart c
  | osem c => exact arun_bart c
  | fbp c => exact arun_fbp c
  | ospmlQuad c => exact arun_ospml c
  | ospmlHybrid c => exact arun_ospml c
  | grad c => exact arun_grad c
  | tikh c => exact arun_grad c
  | tv c => exact arun_tv c
  | vector c => exact arun_vectorN 1 c
  | vector2 c => exact arun_vectorN 2 c
  | vector3 c => exact arun_vectorN 3 c
  | project c => exact arun_project c
  | project2 c => exact arun_project2 c
  | project3 c => exact arun_project2 c
  | gridrec g => exact arun_gridrec g
  | medianFilter v w b => exact arun_medianFilter v w b
  | inpaint c => exact arun_inpaint c
  | stripesDetect v w => exact arun_stripesDetect v w
  | stripesMask v m => exact arun_stripesMask v m
  | stripeSf a b c => exact arun_stripeSf a b c
  | removeRing c => exact arun_removeRing c

theorem left_leak (k : Kernel) : k.left.map Prod.snd = k.leak := by
  cases k <;> simp only [Kernel.left, Kernel.leak] <;> (try split_ifs) <;> rfl

/-! ## The claim -/

/-- **No routine misuses the heap, and each call leaves exactly the blocks of `Kernel.leak`.**
Whatever the sizes, the numbers of iterations and subsets, the numbers of points on the rays and
the state of the heap, a call never frees or uses a pointer that is not initialised or whose block
is gone, leaves every block of its caller alone, and what it leaves on the heap beside them are new
blocks of the sizes listed. -/
theorem call_leaves (k : Kernel) (st : St) (hst : st.WF) :
    ∃ st' new, call k.prog st = some st' ∧ st'.WF ∧ st'.live.Perm (new ++ st.live) ∧
      new.map Prod.snd = k.leak := by
  have h0 : Holds st.live [] { st with env := fun _ => none } (fun _ => 0) :=
    ⟨⟨hst.nodup, hst.lt⟩, by simp, by simp, by simp⟩
  obtain ⟨st', a, h1, h2⟩ := run_sound k.prog h0 (arun_prog k)
  refine ⟨st', k.left.map (fun e => (a e.1, e.2)), h1, h2.wf, h2.live, ?_⟩
  rw [List.map_map, ← left_leak]
  rfl

/-- The routines other than `grad`, `tikh`, `project2`, `project3` and `gridrec`, and those five on
an empty scan, give back every block they take: the heap has the same live blocks afterwards. -/
theorem call_frees_partial (k : Kernel) (hk : k.tidy) (st : St) (hst : st.WF) :
    ∃ st', call k.prog st = some st' ∧ st'.WF ∧ st'.live.Perm st.live := by
  obtain ⟨st', new, h1, h2, h3, h4⟩ := call_leaves k st hst
  refine ⟨st', h1, h2, ?_⟩
  have : k.leak = [] := by
    cases k <;> first | rfl | exact if_pos hk
  rw [this, List.map_eq_nil_iff] at h4
  simpa [h4] using h3

theorem leak_pos (k : Kernel) (hk : ¬k.tidy) : 0 < k.leak.sum := by
  cases k with
  | grad c | tikh c =>
    have hv : ¬c.void := hk
    have : c.dy ≠ 0 := fun h => hv (Or.inl h)
    simp only [Kernel.leak, if_neg hv, List.sum_cons, List.sum_nil]
    omega
  | project2 c | project3 c =>
    have hv : ¬c.void := hk
    simp only [Kernel.leak, if_neg hv, List.sum_cons, List.sum_nil]
    omega
  | gridrec g =>
    have hv : ¬(g.dy = 0 ∨ g.dt = 0 ∨ g.dx = 0) := hk
    simp only [Kernel.leak, if_neg hv, List.sum_cons, List.sum_nil]
    omega
  | _ => exact absurd trivial hk

/-- One call, in bytes. -/
theorem call_bytes (k : Kernel) (st : St) (hst : st.WF) :
    ∃ st', call k.prog st = some st' ∧ st'.WF ∧ st'.bytes = st.bytes + k.leak.sum ∧
      st.live ⊆ st'.live := by
  obtain ⟨st', new, h1, h2, h3, h4⟩ := call_leaves k st hst
  refine ⟨st', h1, h2, ?_, fun b hb => h3.mem_iff.2 (List.mem_append_right _ hb)⟩
  rw [St.bytes, (h3.map Prod.snd).sum_eq, List.map_append, List.sum_append, h4, St.bytes]
  omega

/-- The five routines never give everything back: on any scan that is not empty, the memory in use
has grown when the call returns. -/
theorem call_leaks (k : Kernel) (hk : ¬k.tidy) (st : St) (hst : st.WF) :
    ∃ st', call k.prog st = some st' ∧ st.bytes < st'.bytes := by
  obtain ⟨st', h1, -, h3, -⟩ := call_bytes k st hst
  exact ⟨st', h1, by have := leak_pos k hk; omega⟩

/-- **Any sequence of calls runs without misusing the heap, and uses afterwards exactly the memory
it used before plus the sum of what the calls leave behind.** -/
theorem calls_bytes (ks : List Kernel) (st : St) (hst : st.WF) :
    ∃ st', calls ks st = some st' ∧ st'.WF ∧
      st'.bytes = st.bytes + (ks.map fun k => k.leak.sum).sum ∧ st.live ⊆ st'.live := by
  induction ks generalizing st with
  | nil => exact ⟨st, rfl, hst, by simp, fun _ h => h⟩
  | cons k ks ih =>
    obtain ⟨s1, h1, w1, b1, l1⟩ := call_bytes k st hst
    obtain ⟨s2, h2, w2, b2, l2⟩ := ih s1 w1
    refine ⟨s2, by simp [calls, h1, h2], w2, ?_, fun b hb => l2 (l1 hb)⟩
    rw [b2, b1, List.map_cons, List.sum_cons]
    omega

/-- A process that only calls the tidy routines uses no more memory in the end, however many calls
it makes. -/
theorem calls_tidy_partial (ks : List Kernel) (hk : ∀ k ∈ ks, k.tidy) (st : St) (hst : st.WF) :
    ∃ st', calls ks st = some st' ∧ st'.bytes = st.bytes := by
  obtain ⟨st', h1, -, h3, -⟩ := calls_bytes ks st hst
  refine ⟨st', h1, ?_⟩
  have : (ks.map fun k => k.leak.sum).sum = 0 := by
    refine List.sum_eq_zero fun n hn => ?_
    obtain ⟨k, hk', rfl⟩ := List.mem_map.1 hn
    have : k.leak = [] := by
      have := hk k hk'
      cases k <;> first | rfl | exact if_pos this
    simp [this]
  omega

/-- **The leak is without bound**: by repeating one call of `grad`, `tikh`, `project2`, `project3` or
`gridrec` on a scan that is not empty, a process exceeds any amount of memory. -/
theorem leak_unbounded (k : Kernel) (hk : ¬k.tidy) (st : St) (hst : st.WF) (B : Nat) :
    ∃ n st', calls (List.replicate n k) st = some st' ∧ B < st'.bytes := by
  obtain ⟨st', h1, -, h3, -⟩ := calls_bytes (List.replicate (B + 1) k) st hst
  refine ⟨B + 1, st', h1, ?_⟩
  rw [h3, List.map_replicate, List.sum_replicate_nat]
  have := leak_pos k hk
  nlinarith

/-! ## Instances -/

/-- A heap with nothing on it. -/
def emptyHeap : St := { env := fun _ => none, live := [], next := 1 }

example : emptyHeap.WF := ⟨by simp [emptyHeap], by simp [emptyHeap]⟩

/-- A scan of 2 slices, 2 views, 3 pixels on a 3 × 3 grid, 2 iterations. -/
def smallScan : Scan := ⟨2, 2, 3, 3, 3, 2, 1, fun _ _ _ => 3⟩

example : ¬(Kernel.grad smallScan).tidy ∧ (Kernel.art smallScan).tidy := by
  refine ⟨?_, trivial⟩
  show ¬smallScan.void
  decide

/-- Eight bytes are lost in this call of `grad`, none in that of `art`; the machine run itself says
so. -/
example : ((call (Kernel.grad smallScan).prog emptyHeap).map St.bytes) = some 8 ∧
    ((call (Kernel.art smallScan).prog emptyHeap).map St.bytes) = some 0 := by
  decide +kernel

/-- The machine does stop on a use after free, a double free and an uninitialised pointer. -/
example : call [.alloc .dist 4, .free .dist, .use .dist] emptyHeap = none ∧
    call [.alloc .dist 4, .free .dist, .free .dist] emptyHeap = none ∧
    call [.use .dist] emptyHeap = none := ⟨rfl, rfl, rfl⟩

end Tomopy.Heap
