import Verif.Fl.ArtModel
import Verif.Fl.OsemAcc

/-!
# Iterating on the projections of an image, in `float` arithmetic
-/

set_option linter.unusedSectionVars false

namespace Tomopy.Fl

open Function (update)
open Tomopy.Iter (Dims Segs Geom BlockArgs BlocksOk data_inj)

/-! ## Specification -/

/-- A `float`: a number that `float` can hold, an infinity or NaN. -/
def Rep : F32 → Prop
  | .fin q => fl q = q ∧ |q| < 2 ^ 128
  | _ => True

/-- The projections of `r` are finite numbers (no overflow, no infinity or NaN in `r`). -/
def OwnFinite (f : Bool) (D : Dims) (g : Geom ℚ) (r : MemF) : Prop :=
  ∀ s < D.dy, ∀ p < D.dt, ∀ d < D.dx,
    ∃ q, projectM f D g r (fun _ => .fin 0) (D.data s p d) = .fin q

/-! ## Arithmetic -/

theorem round_rep {q : ℚ} (h : fl q = q ∧ |q| < 2 ^ 128) : F32.round q = .fin q := by
  unfold F32.round
  rw [h.1, if_pos h.2]

theorem round_zero : F32.round 0 = .fin 0 := round_rep ⟨fl_zero, by norm_num⟩

theorem rep_zero : Rep (.fin 0) := ⟨fl_zero, by norm_num⟩

theorem sub_self_fin (q : ℚ) : F32.sub (.fin q) (.fin q) = .fin 0 := by
  show F32.round (q + -q) = _
  rw [add_neg_cancel, round_zero]

/-- Adding a zero times a length. -/
theorem mac_zero (f : Bool) (l : ℚ) {c : F32} (hc : Rep c) : F32.mac f (.fin 0) (.fin l) c = c := by
  cases f <;> cases c <;> simp [F32.mac, F32.mul, F32.add, round_zero]
  · exact round_rep hc
  · exact round_rep hc

theorem add_zero_rep {c : F32} (hc : Rep c) : F32.add c (.fin 0) = c := by
  cases c <;> simp [F32.add]
  exact round_rep hc

theorem mul_one_rep {c : F32} (hc : Rep c) : F32.mul c (.fin 1) = c := by
  cases c with
  | fin q =>
    show F32.round (q * 1) = _
    rw [mul_one]
    exact round_rep hc
  | inf s =>
    have : ¬ (1 : ℚ) < 0 := by norm_num
    simp [F32.mul, this]
  | nan => rfl

/-- A number from zero on, or infinity. -/
def Num (a : F32) : Prop := a = .inf false ∨ ∃ q, 0 ≤ q ∧ a = .fin q

theorem Num.round {x : ℚ} (h : 0 ≤ x) : Num (F32.round x) := by
  unfold F32.round
  split
  · exact Or.inr ⟨_, fl_nonneg h, rfl⟩
  · left; simp [not_lt.mpr h]

theorem Num.add {a : F32} {l : ℚ} (ha : Num a) (hl : 0 ≤ l) : Num (F32.add a (.fin l)) := by
  rcases ha with rfl | ⟨q, hq, rfl⟩
  · exact Or.inl rfl
  · exact Num.round (add_nonneg hq hl)

theorem Num.sq {f : Bool} {a : F32} {l : ℚ} (ha : Num a) : Num (F32.mac f (.fin l) (.fin l) a) := by
  have hs : ∀ {b : F32}, Num b → Num (F32.add b a) := by
    intro b hb
    rcases ha with rfl | ⟨q, hq, rfl⟩
    · rcases hb with rfl | ⟨q', hq', rfl⟩ <;> exact Or.inl (by simp [F32.add])
    · exact hb.add hq
  cases f
  · have : F32.mac false (.fin l) (.fin l) a = F32.add (F32.round (l * l)) a := by
      cases a <;> rfl
    rw [this]
    exact hs (Num.round (mul_self_nonneg l))
  · rcases ha with rfl | ⟨q, hq, rfl⟩
    · exact Or.inl rfl
    · exact Num.round (add_nonneg (mul_self_nonneg l) hq)

theorem Num.zero_div {a : F32} (ha : Num a) (h0 : a ≠ .fin 0) : F32.div (.fin 0) a = .fin 0 := by
  rcases ha with rfl | ⟨q, -, rfl⟩
  · rfl
  · have hq : q ≠ 0 := fun h => h0 (by rw [h])
    simp [F32.div, hq, round_zero]

theorem sumSqF_num (f : Bool) (ray : Segs ℚ) : Num (sumSqF f ray) :=
  foldl_inv _ Num ray _ (fun _ _ _ h => h.sq) (Or.inr ⟨0, le_refl _, rfl⟩)

/-! ## One ray -/

/-- The simulated value of a ray whose entry of `simdata` is zero. -/
def lineF (f : Bool) (D : Dims) (s : Nat) (ray : Segs ℚ) (model : MemF) : F32 :=
  ray.foldl (fun a e => F32.mac f (model (e.1 + s * D.N)) (.fin e.2) a) (.fin 0)

theorem simF_line {f : Bool} {D : Dims} {s p d : Nat} {ray : Segs ℚ} {model sd : MemF}
    (h : sd (D.data s p d) = .fin 0) :
    simF f D s p d ray model sd (D.data s p d) = lineF f D s ray model := by
  rw [simF_val, h]; rfl

theorem spreadF_zero (f : Bool) (D : Dims) (s : Nat) (ray : Segs ℚ) {r : MemF} (hr : ∀ i, Rep (r i)) :
    spreadF f D s ray (.fin 0) r = r := by
  refine foldl_inv _ (fun m : MemF => m = r) ray r (fun m e _ hm => ?_) rfl
  rw [hm, mac_zero f _ (hr _), Function.update_eq_self]

theorem addUpdF_zero (f : Bool) (ray : Segs ℚ) :
    addUpdF f ray (.fin 0) (fun _ => .fin 0) = fun _ => .fin 0 := by
  refine foldl_inv _ (fun m : MemF => m = fun _ => .fin 0) ray _ (fun m e _ hm => ?_) rfl
  rw [hm, mac_zero f _ rep_zero]
  exact Function.update_eq_self e.1 (fun _ => F32.fin 0)

/-! ## The projections -/

/-- Entries that are written once each. -/
theorem fold_once {ι : Type*} (f : MemF → ι → MemF) (idx : ι → Nat) (v : ι → F32)
    (hself : ∀ m k, m (idx k) = .fin 0 → f m k (idx k) = v k)
    (hother : ∀ m k i, i ≠ idx k → f m k i = m i) : ∀ (l : List ι) (m : MemF),
    (l.map idx).Nodup → (∀ k ∈ l, m (idx k) = .fin 0) → ∀ k ∈ l, l.foldl f m (idx k) = v k := by
  intro l
  induction l with
  | nil => intro m _ _ k hk; simp at hk
  | cons a l ih =>
    intro m hnd h0 k hk
    rw [List.map_cons, List.nodup_cons] at hnd
    rw [List.foldl_cons]
    have hne : ∀ b ∈ l, idx b ≠ idx a := fun b hb e => hnd.1 (e ▸ List.mem_map_of_mem hb)
    rcases List.mem_cons.mp hk with rfl | hk
    · have keep : ∀ (l' : List ι) (m' : MemF), (∀ b ∈ l', idx b ≠ idx k) →
          l'.foldl f m' (idx k) = m' (idx k) := by
        intro l'
        induction l' with
        | nil => intro _ _; rfl
        | cons b l' ih' =>
          intro m' hb
          rw [List.foldl_cons, ih' _ fun c hc => hb c (List.mem_cons_of_mem _ hc)]
          exact hother _ _ _ (Ne.symm (hb b (by simp)))
      rw [keep l _ hne]
      exact hself m k (h0 k (by simp))
    · refine ih _ hnd.2 (fun b hb => ?_) k hk
      rw [hother _ _ _ (hne b hb)]
      exact h0 b (List.mem_cons_of_mem _ hb)

/-- The pairs of projection and detector pixel of some projections, in the order of the loops. -/
def pairs (D : Dims) (ps : List Nat) : List (Nat × Nat) := ps.flatMap fun p => (List.range D.dx).map fun d => (p, d)

theorem mem_pairs {D : Dims} {ps : List Nat} {p d : Nat} : (p, d) ∈ pairs D ps ↔ p ∈ ps ∧ d < D.dx := by
  simp [pairs]

theorem pairs_nodup (D : Dims) {ps : List Nat} (h : ps.Nodup) : (pairs D ps).Nodup :=
  List.Nodup.product h List.nodup_range

/-- Projection, detector pixel and slice, in the order of the loops. -/
def triples (D : Dims) : List ((Nat × Nat) × Nat) :=
  (pairs D (List.range D.dt)).flatMap fun q => (List.range D.dy).map fun s => (q, s)

/-- The place of a triple in the data. -/
def place (D : Dims) (t : (Nat × Nat) × Nat) : Nat := D.data t.2 t.1.1 t.1.2

theorem mem_triples {D : Dims} {p d s : Nat} :
    ((p, d), s) ∈ triples D ↔ p < D.dt ∧ d < D.dx ∧ s < D.dy := by
  simp [triples, mem_pairs, and_assoc]

theorem triples_nodup (D : Dims) : ((triples D).map (place D)).Nodup := by
  refine List.Nodup.map_on ?_ (List.Nodup.product (pairs_nodup D List.nodup_range) List.nodup_range)
  rintro ⟨⟨p, d⟩, s⟩ h ⟨⟨p', d'⟩, s'⟩ h' e
  obtain ⟨hp, hd, -⟩ := mem_triples.mp h
  obtain ⟨hp', hd', -⟩ := mem_triples.mp h'
  obtain ⟨rfl, rfl, rfl⟩ := data_inj hp hp' hd hd' e
  rfl

theorem foldl_triples {β : Type*} (D : Dims) (f : β → Nat → Nat → Nat → β) (b : β) :
    (List.range D.dt).foldl (fun b p => (List.range D.dx).foldl (fun b d =>
      (List.range D.dy).foldl (fun b s => f b p d s) b) b) b =
    (triples D).foldl (fun b t => f b t.1.1 t.1.2 t.2) b := by
  rw [foldl_nested (fun b p d => (List.range D.dy).foldl (fun b s => f b p d s) b)]
  exact foldl_nested (fun b (q : Nat × Nat) s => f b q.1 q.2 s) _ _ _

/-- The entry of a ray in the result of `project`. -/
theorem projectM_val {f : Bool} {D : Dims} {g : Geom ℚ} {obj : MemF} {s p d : Nat} (hs : s < D.dy)
    (hp : p < D.dt) (hd : d < D.dx) :
    projectM f D g obj (fun _ => .fin 0) (D.data s p d) = lineF f D s (g 0 p d) obj := by
  unfold projectM
  rw [if_neg (by omega), foldl_triples D (fun m p d s => simF f D s p d (g 0 p d) obj m)]
  exact fold_once (fun m (t : (Nat × Nat) × Nat) => simF f D t.2 t.1.1 t.1.2 (g 0 t.1.1 t.1.2) obj m)
    (place D) (fun t => lineF f D t.2 (g 0 t.1.1 t.1.2) obj) (fun m t h => simF_line h)
    (fun m t i hi => simF_other hi) (triples D) _ (triples_nodup D) (fun _ _ => rfl) ((p, d), s)
    (mem_triples.mpr ⟨hp, hd, hs⟩)

/-! ## art -/

theorem artF_fold {k : OMode} {D : Dims} {g : Geom ℚ} {data r : MemF} (hr : ∀ i, Rep (r i)) :
    ∀ (l : List ((Nat × Nat) × Nat)) (sd : MemF), (l.map (place D)).Nodup →
    (∀ t ∈ l, sd (place D t) = .fin 0) →
    (∀ t ∈ l, data (place D t) = lineF k.sim D t.2 (g 0 t.1.1 t.1.2) r ∧ ∃ q, data (place D t) = .fin q) →
    (l.foldl (fun st t => artStepF k D g data st t.1.1 t.1.2 t.2) (r, sd)).1 = r := by
  intro l
  induction l with
  | nil => intro _ _ _ _; rfl
  | cons t l ih =>
    intro sd hnd h0 hd
    rw [List.map_cons, List.nodup_cons] at hnd
    rw [List.foldl_cons]
    by_cases hq : sumSqF k.sq (g 0 t.1.1 t.1.2) ≠ .fin 0
    · have e : artStepF k D g data (r, sd) t.1.1 t.1.2 t.2 =
          (r, simF k.sim D t.2 t.1.1 t.1.2 (g 0 t.1.1 t.1.2) r sd) := by
        unfold artStepF
        rw [if_pos hq]
        dsimp only
        obtain ⟨hl, q, hdq⟩ := hd t (by simp)
        have hz := h0 t (by simp)
        unfold place at hl hdq hz
        rw [simF_line hz, ← hl, hdq, sub_self_fin, (sumSqF_num _ _).zero_div hq, spreadF_zero _ _ _ _ hr]
      rw [e]
      refine ih _ hnd.2 (fun u hu => ?_) (fun u hu => hd u (List.mem_cons_of_mem _ hu))
      rw [simF_other]
      · exact h0 u (List.mem_cons_of_mem _ hu)
      · intro e'
        exact hnd.1 (List.mem_map.mpr ⟨u, hu, e'⟩)
    · have e : artStepF k D g data (r, sd) t.1.1 t.1.2 t.2 = (r, sd) := by
        unfold artStepF; rw [if_neg hq]
      rw [e]
      exact ih _ hnd.2 (fun u hu => h0 u (List.mem_cons_of_mem _ hu))
        (fun u hu => hd u (List.mem_cons_of_mem _ hu))

/-- **C180, art.**  Iterations of `art` on the projections of an image return that image, exactly. -/
theorem artF_own {k : OMode} {D : Dims} {g : Geom ℚ} {r : MemF} (hr : ∀ i, Rep (r i))
    (hf : OwnFinite k.sim D g r) (num_iter : Nat) :
    artF k D g (projectM k.sim D g r fun _ => .fin 0) num_iter r = r := by
  unfold artF
  split
  · rfl
  refine Function.iterate_fixed ?_ num_iter
  unfold artIterF
  rw [foldl_triples D (fun st p d s => artStepF k D g _ st p d s)]
  refine artF_fold hr (triples D) _ (triples_nodup D) (fun _ _ => rfl) ?_
  rintro ⟨⟨p, d⟩, s⟩ ht
  obtain ⟨hp, hd, hs⟩ := mem_triples.mp ht
  exact ⟨projectM_val hs hp hd, hf s hs p hp d hd⟩

/-! ## Subsets -/

/-- A subset that leaves the image `r` alone if the entries of `simdata` it uses are zero before. -/
def KeepsOwn (D : Dims) (r : MemF) (blk : Nat → MemF × MemF → List Nat → MemF × MemF) : Prop :=
  ∀ s < D.dy, ∀ ps : List Nat, ps.Nodup → (∀ p ∈ ps, p < D.dt) → ∀ sd : MemF,
    (∀ p ∈ ps, ∀ d < D.dx, sd (D.data s p d) = .fin 0) →
    (blk s (r, sd) ps).1 = r ∧
      ∀ i, (∀ p ∈ ps, ∀ d < D.dx, i ≠ D.data s p d) → (blk s (r, sd) ps).2 i = sd i

theorem blocks_own {D : Dims} {r : MemF} {blk : Nat → MemF × MemF → List Nat → MemF × MemF}
    (h : KeepsOwn D r blk) {s : Nat} (hs : s < D.dy) : ∀ (bs : List (List Nat)) (sd : MemF),
    bs.flatten.Nodup → (∀ p ∈ bs.flatten, p < D.dt) →
    (∀ p ∈ bs.flatten, ∀ d < D.dx, sd (D.data s p d) = .fin 0) →
    (bs.foldl (blk s) (r, sd)).1 = r ∧
      ∀ i, (∀ p ∈ bs.flatten, ∀ d < D.dx, i ≠ D.data s p d) → (bs.foldl (blk s) (r, sd)).2 i = sd i := by
  intro bs
  induction bs with
  | nil => intro _ _ _ _; exact ⟨rfl, fun _ _ => rfl⟩
  | cons b bs ih =>
    intro sd hnd hlt h0
    rw [List.flatten_cons] at hnd hlt h0
    obtain ⟨n1, n2, n3⟩ := List.nodup_append.mp hnd
    obtain ⟨e1, e2⟩ := h s hs b n1 (fun p hp => hlt p (List.mem_append_left _ hp)) sd
      (fun p hp => h0 p (List.mem_append_left _ hp))
    rw [List.foldl_cons]
    generalize blk s (r, sd) b = st at e1 e2 ⊢
    obtain ⟨r', sd'⟩ := st
    dsimp only at e1 e2
    subst e1
    obtain ⟨k1, k2⟩ := ih sd' n2 (fun p hp => hlt p (List.mem_append_right _ hp)) (by
      intro p hp d hd
      rw [e2, h0 p (List.mem_append_right _ hp) d hd]
      intro p' hp' d' hd' e
      obtain ⟨-, hpp, -⟩ := data_inj (hlt p (List.mem_append_right _ hp))
        (hlt p' (List.mem_append_left _ hp')) hd hd' e
      exact n3 p' hp' p hp hpp.symm)
    refine ⟨k1, fun i hi => ?_⟩
    rw [List.flatten_cons] at hi
    rw [k2 i fun p hp => hi p (List.mem_append_right _ hp),
      e2 i fun p hp => hi p (List.mem_append_left _ hp)]

theorem iter_own {D : Dims} {r : MemF} {blk : Nat → MemF × MemF → List Nat → MemF × MemF}
    (h : KeepsOwn D r blk) {bs : List (List Nat)} (hb : BlocksOk D bs) :
    ((List.range D.dy).foldl (fun st s => bs.foldl (blk s) st) (r, fun _ => .fin 0)).1 = r := by
  have hlt : ∀ p ∈ bs.flatten, p < D.dt := fun p hp => by
    obtain ⟨ps, h1, h2⟩ := List.mem_flatten.mp hp
    exact hb.lt ps h1 p h2
  have key : ∀ m ≤ D.dy,
      ((List.range m).foldl (fun st s => bs.foldl (blk s) st) (r, fun _ => .fin 0)).1 = r ∧
      ∀ s, m ≤ s → ∀ p < D.dt, ∀ d < D.dx,
        ((List.range m).foldl (fun st s => bs.foldl (blk s) st) (r, fun _ => .fin 0)).2
          (D.data s p d) = .fin 0 := by
    intro m
    induction m with
    | zero => intro _; exact ⟨rfl, fun _ _ _ _ _ _ => rfl⟩
    | succ m ih =>
      intro hm
      obtain ⟨i1, i2⟩ := ih (by omega)
      simp only [List.range_succ, List.foldl_append, List.foldl_cons, List.foldl_nil]
      generalize (List.range m).foldl (fun st s => bs.foldl (blk s) st) (r, fun _ => F32.fin 0) = st at *
      obtain ⟨r', sd⟩ := st
      dsimp only at i1 i2
      subst i1
      obtain ⟨k1, k2⟩ := blocks_own h (s := m) (by omega) bs sd hb.nodup hlt
        (fun p hp d hd => i2 m (le_refl _) p (hlt p hp) d hd)
      refine ⟨k1, fun s hs p hp d hd => ?_⟩
      rw [k2, i2 s (by omega) p hp d hd]
      intro p' hp' d' hd' e
      obtain ⟨hss, -, -⟩ := data_inj hp (hlt p' hp') hd hd' e
      omega
  exact (key D.dy (le_refl _)).1

/-! ## bart and sirt -/

theorem bartFinF_zero {D : Dims} {s : Nat} {a : AccF} {r : MemF} (hr : ∀ i, Rep (r i))
    (hu : a.upd = fun _ => .fin 0) (hn : ∀ n, Num (a.sumd n)) : bartFinF D s a r = r := by
  refine foldl_inv _ (fun m : MemF => m = r) (List.range D.N) r (fun m n _ hm => ?_) rfl
  rw [hm]
  split
  · rename_i h
    rw [hu, (hn n).zero_div h, add_zero_rep (hr _), Function.update_eq_self]
  · rfl

/-- What holds between the rays of a subset of `bart`: `simdata` is as before (`sd`) apart from the
rays that were used, and nothing was accumulated. -/
theorem bartF_fold {k : OMode} {D : Dims} {g : Geom ℚ} {data r : MemF} {s : Nat}
    (hl : LenOk g) : ∀ (l : List (Nat × Nat)) (a : AccF), (l.map fun q => D.data s q.1 q.2).Nodup →
    (∀ q ∈ l, a.sd (D.data s q.1 q.2) = .fin 0) →
    (∀ q ∈ l, data (D.data s q.1 q.2) = lineF k.sim D s (g s q.1 q.2) r ∧
      ∃ v, data (D.data s q.1 q.2) = .fin v) →
    a.upd = (fun _ => .fin 0) → (∀ n, Num (a.sumd n)) →
    (l.foldl (fun a q => bartRayF k D s q.1 q.2 (g s q.1 q.2) data r a) a).upd = (fun _ => .fin 0) ∧
    (∀ n, Num ((l.foldl (fun a q => bartRayF k D s q.1 q.2 (g s q.1 q.2) data r a) a).sumd n)) ∧
    ∀ i, (∀ q ∈ l, i ≠ D.data s q.1 q.2) →
      (l.foldl (fun a q => bartRayF k D s q.1 q.2 (g s q.1 q.2) data r a) a).sd i = a.sd i := by
  intro l
  induction l with
  | nil => intro a _ _ _ hu hn; exact ⟨hu, hn, fun _ _ => rfl⟩
  | cons t l ih =>
    intro a hnd h0 hd hu hn
    rw [List.map_cons, List.nodup_cons] at hnd
    rw [List.foldl_cons]
    obtain ⟨k1, k2, k3⟩ := ih (bartRayF k D s t.1 t.2 (g s t.1 t.2) data r a) hnd.2 (fun q hq => by
        show simF _ _ _ _ _ _ _ _ _ = _
        rw [simF_other]
        · exact h0 q (List.mem_cons_of_mem _ hq)
        · exact fun e => hnd.1 (List.mem_map.mpr ⟨q, hq, e⟩)) (fun q hq => hd q (List.mem_cons_of_mem _ hq))
      (by
        show (if _ then _ else _) = _
        split
        · rename_i hq
          obtain ⟨hline, v, hv⟩ := hd t (by simp)
          rw [simF_line (h0 t (by simp)), ← hline, hv, sub_self_fin, (sumSqF_num _ _).zero_div hq, hu,
            addUpdF_zero]
        · exact hu)
      (by
        show ∀ n, Num (addLenF _ _ n)
        refine foldl_inv _ (fun m : MemF => ∀ n, Num (m n)) _ _ (fun m e he hm n => ?_) hn
        by_cases hen : n = e.1
        · subst hen; rw [Function.update_self]; exact (hm _).add (hl _ _ _ e he)
        · rw [Function.update_of_ne hen]; exact hm n)
    refine ⟨k1, k2, fun i hi => ?_⟩
    rw [k3 i fun q hq => hi q (List.mem_cons_of_mem _ hq)]
    exact simF_other (hi t (by simp))

theorem pairs_place {D : Dims} {ps : List Nat} (hnd : ps.Nodup) (hlt : ∀ p ∈ ps, p < D.dt) (s : Nat) :
    ((pairs D ps).map fun q => D.data s q.1 q.2).Nodup := by
  refine List.Nodup.map_on ?_ (pairs_nodup D hnd)
  rintro ⟨p, d⟩ h ⟨p', d'⟩ h' e
  obtain ⟨hp, hd⟩ := mem_pairs.mp h
  obtain ⟨hp', hd'⟩ := mem_pairs.mp h'
  obtain ⟨-, rfl, rfl⟩ := data_inj (hlt _ hp) (hlt _ hp') hd hd' e
  rfl

theorem bart_keeps {k : OMode} {D : Dims} {g : Geom ℚ} {r : MemF} (hl : LenOk g)
    (hc : ∀ s < D.dy, g s = g 0) (hr : ∀ i, Rep (r i)) (hf : OwnFinite k.sim D g r) :
    KeepsOwn D r (bartBlockF k D g (projectM k.sim D g r fun _ => .fin 0)) := by
  intro s hs ps hnd hlt sd h0
  have e : bartAccF k D g s ps (projectM k.sim D g r fun _ => .fin 0) r sd =
      (pairs D ps).foldl (fun a q => bartRayF k D s q.1 q.2 (g s q.1 q.2)
        (projectM k.sim D g r fun _ => .fin 0) r a) ⟨sd, fun _ => .fin 0, fun _ => .fin 0⟩ :=
    foldl_nested (fun a p d => bartRayF k D s p d (g s p d) _ r a) _ _ _
  obtain ⟨k1, k2, k3⟩ := bartF_fold (k := k) (data := projectM k.sim D g r fun _ => .fin 0) (r := r) (s := s) hl
    (pairs D ps) ⟨sd, fun _ => .fin 0, fun _ => .fin 0⟩ (pairs_place hnd hlt s)
    (fun q hq => h0 q.1 (mem_pairs.mp hq).1 q.2 (mem_pairs.mp hq).2)
    (fun q hq => by
      have hq' := mem_pairs.mp hq
      refine ⟨?_, hf s hs q.1 (hlt _ hq'.1) q.2 hq'.2⟩
      rw [projectM_val hs (hlt _ hq'.1) hq'.2, hc s hs])
    rfl (fun _ => Or.inr ⟨0, le_refl _, rfl⟩)
  rw [← e] at k1 k2 k3
  refine ⟨bartFinF_zero hr k1 k2, fun i hi => k3 i fun q hq => ?_⟩
  exact hi q.1 (mem_pairs.mp hq).1 q.2 (mem_pairs.mp hq).2

/-- **C180, bart.**  Iterations of `bart` with any subsets on the projections of an image return that
image, exactly. -/
theorem bartF_own {k : OMode} {D : Dims} {g : Geom ℚ} {r : MemF} {nb : Nat} {ind : List Nat}
    (hb : BlockArgs D.dt nb ind) (hl : LenOk g) (hc : ∀ s < D.dy, g s = g 0) (hr : ∀ i, Rep (r i))
    (hf : OwnFinite k.sim D g r) (num_iter : Nat) :
    bartF k D g (projectM k.sim D g r fun _ => .fin 0) num_iter nb ind r = some r := by
  unfold bartF
  split
  · rfl
  have fin : ∀ bs, BlocksOk D bs →
      (bartIterF k D g (projectM k.sim D g r fun _ => .fin 0) bs)^[num_iter] r = r := fun bs hbs =>
    Function.iterate_fixed (iter_own (bart_keeps hl hc hr hf) hbs) num_iter
  rcases hb with h | ⟨h1, h2⟩
  · subst h
    rw [if_neg one_ne_zero, Tomopy.Iter.blocks_single, Option.map_some, fin _ (Tomopy.Iter.blocksOk_single D)]
  · rw [if_neg (by omega), (Tomopy.Iter.blocks_perm h1 h2).1, Option.map_some,
      fin _ (Tomopy.Iter.blocksOk_perm h1 h2)]

/-- **C180, sirt.** -/
theorem sirtF_own {k : OMode} {D : Dims} {g : Geom ℚ} {r : MemF} (hl : LenOk g)
    (hc : ∀ s < D.dy, g s = g 0) (hr : ∀ i, Rep (r i)) (hf : OwnFinite k.sim D g r) (num_iter : Nat) :
    sirtF k D g (projectM k.sim D g r fun _ => .fin 0) num_iter r = some r :=
  bartF_own (Or.inl rfl) hl hc hr hf num_iter

/-! ## osem and mlem -/

/-- What `osem` needs: segments that are floats up to `2¹⁵` (`geomF_ok`: those of the ray tracer
are), and either a ray without length
or one with a finite non-zero projection and a `sum_dist2` that does not underflow. -/
structure OwnPositive (k : OMode) (D : Dims) (g : Geom ℚ) (r : MemF) : Prop where
  len : ∀ s p d, ∀ e ∈ g s p d, 0 ≤ e.2 ∧ e.2 ≤ 2 ^ 15 ∧ fl e.2 = e.2
  pos : ∀ s < D.dy, ∀ p < D.dt, ∀ d < D.dx, sumSqF k.sq (g 0 p d) ≠ .fin 0 →
    ∃ q, q ≠ 0 ∧ projectM k.sim D g r (fun _ => .fin 0) (D.data s p d) = .fin q
  short : ∀ p < D.dt, ∀ d < D.dx, sumSqF k.sq (g 0 p d) = .fin 0 → ∀ e ∈ g 0 p d, e.2 = 0

/-- A sum of lengths: it never grows beyond `2⁴⁰`, where a length is rounded away. -/
def LenSum (a : F32) : Prop := ∃ q, a = .fin q ∧ 0 ≤ q ∧ q ≤ 2 ^ 40 ∧ fl q = q

theorem fl_40 : fl (2 ^ 40 + 2 ^ 15) = 2 ^ 40 := by decide +kernel

theorem LenSum.add {a : F32} (ha : LenSum a) {l : ℚ} (hl : 0 ≤ l ∧ l ≤ 2 ^ 15) :
    LenSum (F32.add a (.fin l)) := by
  obtain ⟨q, rfl, h0, h1, -⟩ := ha
  have hn : 0 ≤ fl (q + l) := fl_nonneg (by linarith)
  have hb : fl (q + l) ≤ 2 ^ 40 := by
    rw [← fl_40]
    exact fl_mono (by linarith)
  refine ⟨fl (q + l), ?_, hn, hb, fl_fl _⟩
  show F32.round (q + l) = _
  unfold F32.round
  rw [if_pos]
  rw [abs_of_nonneg hn]
  exact lt_of_le_of_lt hb (by norm_num)

theorem LenSum.mac {f : Bool} {a : F32} (ha : LenSum a) {l : ℚ} (hl : 0 ≤ l ∧ l ≤ 2 ^ 15 ∧ fl l = l) :
    F32.mac f (.fin 1) (.fin l) a = F32.add a (.fin l) := by
  obtain ⟨q, rfl, -⟩ := ha
  have hr : F32.round l = .fin l := round_rep ⟨hl.2.2, by
    rw [abs_of_nonneg hl.1]; exact lt_of_le_of_lt hl.2.1 (by norm_num)⟩
  cases f
  · show F32.add (F32.round (1 * l)) (.fin q) = F32.round (q + l)
    rw [one_mul, hr]
    show F32.round (l + q) = _
    rw [add_comm]
  · show F32.round (1 * l + q) = F32.round (q + l)
    rw [one_mul, add_comm]

theorem div_self_fin {q : ℚ} (h : q ≠ 0) : F32.div (.fin q) (.fin q) = .fin 1 := by
  show (if q = 0 then _ else F32.round (q / q)) = _
  rw [if_neg h, div_self h]
  exact round_rep ⟨by have := fl_int (m := 1) (by norm_num); push_cast at this; exact this, by norm_num⟩

theorem addLenF_sum {ray : Segs ℚ} {m : MemF} (hl : ∀ e ∈ ray, 0 ≤ e.2 ∧ e.2 ≤ 2 ^ 15 ∧ fl e.2 = e.2)
    (hm : ∀ n, LenSum (m n)) : ∀ n, LenSum (addLenF ray m n) := by
  refine foldl_inv _ (fun m : MemF => ∀ n, LenSum (m n)) _ _ (fun m e he hm n => ?_) hm
  by_cases hen : n = e.1
  · subst hen; rw [Function.update_self]; exact (hm _).add ⟨(hl e he).1, (hl e he).2.1⟩
  · rw [Function.update_of_ne hen]; exact hm n

theorem addUpdF_one (f : Bool) : ∀ (ray : Segs ℚ) (m : MemF),
    (∀ e ∈ ray, 0 ≤ e.2 ∧ e.2 ≤ 2 ^ 15 ∧ fl e.2 = e.2) → (∀ n, LenSum (m n)) →
    addUpdF f ray (.fin 1) m = addLenF ray m := by
  intro ray
  induction ray with
  | nil => intro _ _ _; rfl
  | cons e ray ih =>
    intro m hl hm
    have h1 := addLenF_sum (ray := [e]) (m := m) (by simpa using hl e (by simp)) hm
    have h2 : ∀ n, LenSum (update m e.1 (F32.add (m e.1) (.fin e.2)) n) := h1
    show addUpdF f ray (.fin 1) (update m e.1 (F32.mac f (.fin 1) (.fin e.2) (m e.1))) =
      addLenF ray (update m e.1 (F32.add (m e.1) (.fin e.2)))
    rw [(hm e.1).mac (hl e (by simp))]
    exact ih _ (fun e' he' => hl e' (List.mem_cons_of_mem _ he')) h2

theorem addLenF_zero {ray : Segs ℚ} {m : MemF} (hl : ∀ e ∈ ray, e.2 = 0) (hm : ∀ n, LenSum (m n)) :
    addLenF ray m = m := by
  refine foldl_inv _ (fun m' : MemF => m' = m) ray m (fun m' e he hm' => ?_) rfl
  obtain ⟨q, hq, h0, h1, h2⟩ := hm e.1
  rw [hm', hl e he, add_zero_rep, Function.update_eq_self]
  rw [hq]
  exact ⟨h2, by rw [abs_of_nonneg h0]; exact lt_of_le_of_lt h1 (by norm_num)⟩

theorem finF_one {D : Dims} {s : Nat} {a : AccF} {r : MemF} (hr : ∀ i, Rep (r i))
    (hu : a.upd = a.sumd) (hn : ∀ n, LenSum (a.sumd n)) : finF D s a r = r := by
  refine foldl_inv _ (fun m : MemF => m = r) (List.range D.N) r (fun m n _ hm => ?_) rfl
  rw [hm]
  split
  · rename_i h
    obtain ⟨q, hq, -⟩ := hn n
    have hq0 : q ≠ 0 := fun e => h (by rw [hq, e])
    rw [hu, hq, div_self_fin hq0, mul_one_rep (hr _), Function.update_eq_self]
  · rfl

theorem osemF_fold {k : OMode} {D : Dims} {g : Geom ℚ} {data r : MemF} {s : Nat}
    (hl : ∀ s p d, ∀ e ∈ g s p d, 0 ≤ e.2 ∧ e.2 ≤ 2 ^ 15 ∧ fl e.2 = e.2) :
    ∀ (l : List (Nat × Nat)) (a : AccF), (l.map fun q => D.data s q.1 q.2).Nodup →
    (∀ q ∈ l, a.sd (D.data s q.1 q.2) = .fin 0) →
    (∀ q ∈ l, data (D.data s q.1 q.2) = lineF k.sim D s (g s q.1 q.2) r) →
    (∀ q ∈ l, sumSqF k.sq (g s q.1 q.2) ≠ .fin 0 → ∃ v, v ≠ 0 ∧ data (D.data s q.1 q.2) = .fin v) →
    (∀ q ∈ l, sumSqF k.sq (g s q.1 q.2) = .fin 0 → ∀ e ∈ g s q.1 q.2, e.2 = 0) →
    a.upd = a.sumd → (∀ n, LenSum (a.sumd n)) →
    (l.foldl (fun a q => accRayF k D s q.1 q.2 (g s q.1 q.2) data r a) a).upd =
      (l.foldl (fun a q => accRayF k D s q.1 q.2 (g s q.1 q.2) data r a) a).sumd ∧
    (∀ n, LenSum ((l.foldl (fun a q => accRayF k D s q.1 q.2 (g s q.1 q.2) data r a) a).sumd n)) ∧
    ∀ i, (∀ q ∈ l, i ≠ D.data s q.1 q.2) →
      (l.foldl (fun a q => accRayF k D s q.1 q.2 (g s q.1 q.2) data r a) a).sd i = a.sd i := by
  intro l
  induction l with
  | nil => intro a _ _ _ _ _ hu hn; exact ⟨hu, hn, fun _ _ => rfl⟩
  | cons t l ih =>
    intro a hnd h0 hd hp hz hu hn
    rw [List.map_cons, List.nodup_cons] at hnd
    rw [List.foldl_cons]
    obtain ⟨k1, k2, k3⟩ := ih (accRayF k D s t.1 t.2 (g s t.1 t.2) data r a) hnd.2 (fun q hq => by
        show simF _ _ _ _ _ _ _ _ _ = _
        rw [simF_other]
        · exact h0 q (List.mem_cons_of_mem _ hq)
        · exact fun e => hnd.1 (List.mem_map.mpr ⟨q, hq, e⟩)) (fun q hq => hd q (List.mem_cons_of_mem _ hq))
      (fun q hq => hp q (List.mem_cons_of_mem _ hq)) (fun q hq => hz q (List.mem_cons_of_mem _ hq))
      (by
        show (if _ then _ else _) = addLenF _ _
        split
        · rename_i hq
          obtain ⟨v, hv0, hv⟩ := hp t (by simp) hq
          rw [simF_line (h0 t (by simp)), ← hd t (by simp), hv, div_self_fin hv0, hu]
          exact addUpdF_one _ _ _ (hl _ _ _) hn
        · rename_i hq
          rw [addLenF_zero (hz t (by simp) (not_not.mp hq)) hn]
          exact hu)
      (addLenF_sum (hl _ _ _) hn)
    refine ⟨k1, k2, fun i hi => ?_⟩
    rw [k3 i fun q hq => hi q (List.mem_cons_of_mem _ hq)]
    exact simF_other (hi t (by simp))

theorem osem_keeps {k : OMode} {D : Dims} {g : Geom ℚ} {r : MemF} (hc : ∀ s < D.dy, g s = g 0)
    (hr : ∀ i, Rep (r i)) (hf : OwnPositive k D g r) :
    KeepsOwn D r (osBlockF k D g (projectM k.sim D g r fun _ => .fin 0)) := by
  intro s hs ps hnd hlt sd h0
  have e : accBlockF k D g s ps (projectM k.sim D g r fun _ => .fin 0) r sd =
      (pairs D ps).foldl (fun a q => accRayF k D s q.1 q.2 (g s q.1 q.2)
        (projectM k.sim D g r fun _ => .fin 0) r a) ⟨sd, fun _ => .fin 0, fun _ => .fin 0⟩ :=
    foldl_nested (fun a p d => accRayF k D s p d (g s p d) _ r a) _ _ _
  obtain ⟨k1, k2, k3⟩ := osemF_fold (k := k) (data := projectM k.sim D g r fun _ => .fin 0) (r := r) (s := s)
    hf.len (pairs D ps) ⟨sd, fun _ => .fin 0, fun _ => .fin 0⟩ (pairs_place hnd hlt s)
    (fun q hq => h0 q.1 (mem_pairs.mp hq).1 q.2 (mem_pairs.mp hq).2)
    (fun q hq => by
      have hq' := mem_pairs.mp hq
      rw [projectM_val hs (hlt _ hq'.1) hq'.2, hc s hs])
    (fun q hq => by
      have hq' := mem_pairs.mp hq
      rw [hc s hs]
      exact hf.pos s hs q.1 (hlt _ hq'.1) q.2 hq'.2)
    (fun q hq => by
      have hq' := mem_pairs.mp hq
      rw [hc s hs]
      exact hf.short q.1 (hlt _ hq'.1) q.2 hq'.2)
    rfl (fun _ => ⟨0, rfl, le_refl _, by norm_num, fl_zero⟩)
  rw [← e] at k1 k2 k3
  refine ⟨finF_one hr k1 k2, fun i hi => k3 i fun q hq => ?_⟩
  exact hi q.1 (mem_pairs.mp hq).1 q.2 (mem_pairs.mp hq).2

/-- **C180, osem.**  Iterations of `osem` with any subsets on the projections of an image return that
image, exactly, if every ray with a length has a projection that is not zero. -/
theorem osemF_own {k : OMode} {D : Dims} {g : Geom ℚ} {r : MemF} {nb : Nat} {ind : List Nat}
    (hb : BlockArgs D.dt nb ind) (hc : ∀ s < D.dy, g s = g 0) (hr : ∀ i, Rep (r i))
    (hf : OwnPositive k D g r) (num_iter : Nat) :
    osemF k D g (projectM k.sim D g r fun _ => .fin 0) num_iter nb ind r = some r := by
  obtain ⟨bs, hbs, -, e⟩ := osemF_blocks (k := k) (g := g)
    (data := projectM k.sim D g r fun _ => .fin 0) (num_iter := num_iter) hb r
  rw [e]
  split
  · rfl
  · rw [Function.iterate_fixed (iter_own (osem_keeps hc hr hf) hbs) num_iter]

/-- **C180, mlem.** -/
theorem mlemF_own {k : OMode} {D : Dims} {g : Geom ℚ} {r : MemF} (hc : ∀ s < D.dy, g s = g 0)
    (hr : ∀ i, Rep (r i)) (hf : OwnPositive k D g r) (num_iter : Nat) :
    mlemF k D g (projectM k.sim D g r fun _ => .fin 0) num_iter r = some r :=
  osemF_own (Or.inl rfl) hc hr hf num_iter

/-- Both conditions of `osemF_own` on the rays are needed: the square of a very short segment
underflows, the ray is left out of `update` but not of `sum_dist`, and the pixel becomes zero. -/
theorem osemF_own_short (k : OMode) :
    (mlemF k ⟨1, 1, 1, 1⟩ (fun _ _ _ => [(0, 1 / 2 ^ 80)])
      (projectM k.sim ⟨1, 1, 1, 1⟩ (fun _ _ _ => [(0, 1 / 2 ^ 80)]) (fun _ => .fin 1) fun _ => .fin 0) 1
      (fun _ => .fin 1)).map (fun m => m 0) = some (.fin 0) := by
  obtain ⟨a, b, c⟩ := k
  cases a <;> cases b <;> cases c <;> decide +kernel

/-- Images of ordinary magnitude (pixels from `2⁻²⁰` to `2²⁰`, segments of length zero or from `2⁻²⁰` to
`2`, at most 16383 in a ray) meet the conditions of all five theorems. -/
theorem own_ordinary {k : OMode} {D : Dims} {g : Geom ℚ} {r : Nat → ℚ}
    (hseg : ∀ s p d, RayOk D.N (g s p d) ∧ (g s p d).length ≤ 16383 ∧ ∀ e ∈ g s p d, fl e.2 = e.2)
    (hpix : ∀ s < D.dy, ∀ n < D.N, 1 / 2 ^ 20 ≤ r (n + s * D.N) ∧ r (n + s * D.N) ≤ 2 ^ 20) :
    OwnFinite k.sim D g (fun i => .fin (r i)) ∧ OwnPositive k D g (fun i => .fin (r i)) := by
  have track : ∀ s < D.dy, ∀ p d, NearF (0 + (0 + (g 0 p d).length) + 1)
      (lineF k.sim D s (g 0 p d) fun i => .fin (r i))
      (0 + ((g 0 p d).map fun e => r (e.1 + s * D.N) * e.2).sum) := by
    intro s hs p d
    obtain ⟨hok, hlen, -⟩ := hseg 0 p d
    exact (sim_tracked k.sim (s * D.N) (hpix s hs) (model := fun i => .fin (r i)) (fun _ _ => rfl) (g 0 p d) 0 (.fin 0) 0 hok (by omega)
      (Tracked.zero _ _ _)).near
  constructor
  · intro s hs p hp d hd
    rw [projectM_val hs hp hd]
    obtain ⟨x, hx, -⟩ := track s hs p d
    exact ⟨x, hx⟩
  · refine ⟨fun s p d e he => ?_, fun s hs p hp d hd hsq => ?_, fun p _ d _ hsq e he => ?_⟩
    · obtain ⟨hok, -, hfl⟩ := hseg s p d
      rcases (hok e he).2 with h | ⟨h1, h2⟩
      · exact ⟨by rw [h], by rw [h]; norm_num, hfl e he⟩
      · exact ⟨le_trans (by norm_num) h1, le_trans h2 (by norm_num), hfl e he⟩
    · rw [projectM_val hs hp hd]
      have hn := track s hs p d
      obtain ⟨hok, hlen, -⟩ := hseg 0 p d
      have hne := (sumSqF_ne k.sq hok hlen).mp hsq
      have hpos : 0 < Tomopy.Iter.lineSum D.N s (g 0 p d) r := Tomopy.Iter.lineSum_pos
        (fun e he => ⟨(hok e he).1, by
          rcases (hok e he).2 with h | h
          · rw [h]
          · exact le_trans (by norm_num) h.1⟩)
        (fun n hn => lt_of_lt_of_le (by norm_num) (hpix s hs n hn).1) hne
      have hne' := (hn.ne_zero).mpr (by rw [zero_add]; exact ne_of_gt hpos)
      obtain ⟨x, hx, -⟩ := hn
      exact ⟨x, fun e => hne' (by rw [hx, e]), hx⟩
    · obtain ⟨hok, hlen, -⟩ := hseg 0 p d
      have h0 : Tomopy.Iter.sumDist2 (g 0 p d) = 0 := by
        by_contra hne
        exact (sumSqF_ne k.sq hok hlen).mpr hne hsq
      by_contra hne
      exact Tomopy.Iter.sumDist2_ne_zero_of he hne h0

/-! ## Examples -/

/-- Two projections and one detector pixel, four pixels in a slice; lengths that are not exact in
binary. -/
def ownG : Geom ℚ := fun _ p _ =>
  if p = 0 then [(0, fl (1 / 10)), (1, fl (4 / 3))] else [(1, fl (1 / 3)), (3, 1)]

/-- An image for the examples. -/
def ownR : Nat → ℚ := fun i => if i % 2 = 0 then fl (1 / 7) else fl (5 / 3)

theorem ownR_rep (i : Nat) : Rep (.fin (ownR i)) := by
  unfold ownR
  split <;> exact ⟨fl_fl _, by decide +kernel⟩

theorem ownG_ok (s p d : Nat) : RayOk 4 (ownG s p d) ∧ (ownG s p d).length ≤ 16383 ∧
    ∀ e ∈ ownG s p d, fl e.2 = e.2 := by
  unfold ownG
  split
  · refine ⟨?_, by simp, ?_⟩ <;> intro e he <;> simp at he <;> rcases he with rfl | rfl
    · exact ⟨by norm_num, Or.inr (by decide +kernel)⟩
    · exact ⟨by norm_num, Or.inr (by decide +kernel)⟩
    · exact fl_fl _
    · exact fl_fl _
  · refine ⟨?_, by simp, ?_⟩ <;> intro e he <;> simp at he <;> rcases he with rfl | rfl
    · exact ⟨by norm_num, Or.inr (by decide +kernel)⟩
    · exact ⟨by norm_num, Or.inr (by decide +kernel)⟩
    · exact fl_fl _
    · decide +kernel

theorem ownR_pix (D : Dims) : ∀ s < D.dy, ∀ n < D.N,
    1 / 2 ^ 20 ≤ ownR (n + s * D.N) ∧ ownR (n + s * D.N) ≤ 2 ^ 20 := by
  intro s _ n _
  unfold ownR
  split <;> decide +kernel

/-- The hypotheses hold for two slices of four pixels, with the subsets in another order. -/
example (k : OMode) (n : Nat) :
    osemF k ⟨2, 2, 1, 4⟩ ownG (projectM k.sim ⟨2, 2, 1, 4⟩ ownG (fun i => .fin (ownR i)) fun _ => .fin 0)
      n 2 [1, 0] (fun i => .fin (ownR i)) = some fun i => .fin (ownR i) :=
  osemF_own (Or.inr (by decide)) (fun _ _ => rfl) ownR_rep (own_ordinary ownG_ok (ownR_pix _)).2 n

example (k : OMode) (n : Nat) :
    artF k ⟨2, 2, 1, 4⟩ ownG (projectM k.sim ⟨2, 2, 1, 4⟩ ownG (fun i => .fin (ownR i)) fun _ => .fin 0)
      n (fun i => .fin (ownR i)) = fun i => .fin (ownR i) :=
  artF_own ownR_rep (own_ordinary ownG_ok (ownR_pix _)).1 n

example (k : OMode) (n : Nat) :
    bartF k ⟨2, 2, 1, 4⟩ ownG (projectM k.sim ⟨2, 2, 1, 4⟩ ownG (fun i => .fin (ownR i)) fun _ => .fin 0)
      n 2 [1, 0] (fun i => .fin (ownR i)) = some fun i => .fin (ownR i) :=
  bartF_own (Or.inr (by decide))
    (fun s p d e he => by
      rcases ((ownG_ok s p d).1 e he).2 with h | h
      · rw [h]
      · exact le_trans (by norm_num) h.1)
    (fun _ _ => rfl) ownR_rep (own_ordinary ownG_ok (ownR_pix _)).1 n

/-- The projections are not those of exact arithmetic, and the methods do move other images. -/
example : projectM false ⟨2, 2, 1, 4⟩ ownG (fun i => .fin (ownR i)) (fun _ => .fin 0) 0 ≠
      .fin (ownR 0 * fl (1 / 10) + ownR 1 * fl (4 / 3)) ∧
    artF ⟨false, false, false⟩ ⟨2, 2, 1, 4⟩ ownG
      (projectM false ⟨2, 2, 1, 4⟩ ownG (fun i => .fin (ownR i)) fun _ => .fin 0) 1 (fun _ => .fin 1) 0 ≠
      .fin 1 := by
  constructor <;> decide +kernel

end Tomopy.Fl
