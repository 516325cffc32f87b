import Verif.Fl.Own

/-!
# Slices in `float` arithmetic: bit for bit, with NaN and infinities
-/

set_option linter.unusedSectionVars false

namespace Tomopy.Fl

open Function (update)
open Tomopy.Iter (Dims Segs Geom BlockArgs BlocksOk subsets subsetProjs data_inj)

/-! ## Specification -/

/-- Sizes of the call on `k` slices. -/
def slices (D : Dims) (k : Nat) : Dims := ⟨k, D.dt, D.dx, D.N⟩

/-- `m1` holds slice `s` of the data `m`. -/
def DatIs (D : Dims) (s : Nat) (m m1 : MemF) : Prop :=
  ∀ n < D.dt * D.dx, m1 n = m (n + s * (D.dt * D.dx))

/-- `r1` holds slice `s` of the image `r`. -/
def RecIs (D : Dims) (s : Nat) (r r1 : MemF) : Prop := ∀ n < D.N, r1 n = r (n + s * D.N)

/-- All segments are in pixels of the slice. -/
def Inside (D : Dims) (g : Geom ℚ) : Prop := ∀ s < D.dy, ∀ p < D.dt, ∀ d < D.dx, ∀ e ∈ g s p d, e.1 < D.N

/-- A function of sizes, geometry, data and start that gives in every slice what it gives for the slice
alone, with its data, start and centre. -/
def AloneF (G : Dims → Geom ℚ → Prop) (F : Dims → Geom ℚ → MemF → MemF → Option MemF) : Prop :=
  ∀ D g data recon, Inside D g → G D g → ∀ s < D.dy, ∀ data1 recon1, DatIs D s data data1 →
    RecIs D s recon recon1 → ∃ o o1, F D g data recon = some o ∧
      F (slices D 1) (fun _ => g s) data1 recon1 = some o1 ∧ RecIs D s o o1

/-- All slices have the same centre. -/
def OneCentre (D : Dims) (g : Geom ℚ) : Prop := ∀ s < D.dy, g s = g 0

/-- Every slice may have its own centre. -/
def AnyCentre (_ : Dims) (_ : Geom ℚ) : Prop := True

/-! ## Simulation -/

theorem foldl_rel {α β τ : Type*} (R : α → β → Prop) (f : α → τ → α) (f' : β → τ → β) :
    ∀ (l : List τ), (∀ t ∈ l, ∀ a b, R a b → R (f a t) (f' b t)) → ∀ a b, R a b →
      R (l.foldl f a) (l.foldl f' b) := by
  intro l
  induction l with
  | nil => intro _ a b h; exact h
  | cons t l ih =>
    intro h a b hab
    exact ih (fun t ht => h t (List.mem_cons_of_mem _ ht)) _ _ (h t (by simp) a b hab)

/-- A loop over the slices, of which one acts and the others do not touch. -/
theorem foldl_slice {α β : Type*} (R : α → β → Prop) (f : α → Nat → α) (f' : β → β) (s : Nat) :
    ∀ (l : List Nat), l.Nodup → (∀ t ∈ l, t ≠ s → ∀ a b, R a b → R (f a t) b) →
      (∀ a b, R a b → R (f a s) (f' b)) → ∀ a b, R a b →
      R (l.foldl f a) (if s ∈ l then f' b else b) := by
  intro l
  induction l with
  | nil => intro _ _ _ a b h; simpa using h
  | cons t l ih =>
    intro hnd h1 h2 a b hab
    rw [List.nodup_cons] at hnd
    rw [List.foldl_cons]
    by_cases e : t = s
    · subst e
      rw [if_pos (by simp)]
      have := ih hnd.2 (fun t ht => h1 t (List.mem_cons_of_mem _ ht)) h2 _ _ (h2 a b hab)
      rwa [if_neg hnd.1] at this
    · have := ih hnd.2 (fun t ht => h1 t (List.mem_cons_of_mem _ ht)) h2 _ _ (h1 t (by simp) e a b hab)
      have e2 : s ∈ t :: l ↔ s ∈ l := by simp [Ne.symm e]
      simpa only [e2] using this

theorem datIs_data {D : Dims} {s p d : Nat} {m m1 : MemF} (h : DatIs D s m m1) (hp : p < D.dt)
    (hd : d < D.dx) : m1 ((slices D 1).data 0 p d) = m (D.data s p d) := by
  have e : (slices D 1).data 0 p d = d + p * D.dx := by
    unfold Dims.data slices
    ring
  have hlt : d + p * D.dx < D.dt * D.dx := by
    have : (p + 1) * D.dx ≤ D.dt * D.dx := Nat.mul_le_mul_right _ hp
    have e3 : (p + 1) * D.dx = p * D.dx + D.dx := by ring
    omega
  rw [e, h _ hlt]
  unfold Dims.data
  congr 1
  ring

/-- `simdata` of the two calls. -/
def SdRel (D : Dims) (s : Nat) (sd sd1 : MemF) : Prop :=
  ∀ p < D.dt, ∀ d < D.dx, sd1 ((slices D 1).data 0 p d) = sd (D.data s p d)

/-- The state `(recon, simdata)` of the two calls. -/
def StRel (D : Dims) (s : Nat) (st st1 : MemF × MemF) : Prop := RecIs D s st.1 st1.1 ∧ SdRel D s st.2 st1.2

theorem simF_at {f : Bool} {D : Dims} {s : Nat} {ray : Segs ℚ} (hr : ∀ e ∈ ray, e.1 < D.N)
    {r r1 sd sd1 : MemF} (h : RecIs D s r r1) (hsd : SdRel D s sd sd1) {p d : Nat} (hp : p < D.dt)
    (hd : d < D.dx) : SdRel D s (simF f D s p d ray r sd) (simF f (slices D 1) 0 p d ray r1 sd1) := by
  intro p' hp' d' hd'
  by_cases e : p' = p ∧ d' = d
  · obtain ⟨rfl, rfl⟩ := e
    rw [simF_val, simF_val, hsd p' hp' d' hd']
    refine foldl_rel (fun a b : F32 => b = a) _ _ ray (fun e he a b hab => ?_) _ _ rfl
    rw [hab]
    have := h e.1 (hr e he)
    rw [← this, Nat.zero_mul, Nat.add_zero]
  · rw [simF_other, simF_other, hsd p' hp' d' hd']
    · intro e'
      exact e (data_inj hp' hp hd' hd e').2
    · intro e'
      exact e (data_inj (D := slices D 1) hp' hp hd' hd e').2

/-- Another slice does not touch `simdata`. -/
theorem simF_off {f : Bool} {D : Dims} {s s' : Nat} (hs : s' ≠ s) {ray : Segs ℚ} {r sd sd1 : MemF}
    (hsd : SdRel D s sd sd1) {p d : Nat} (hp : p < D.dt) (hd : d < D.dx) :
    SdRel D s (simF f D s' p d ray r sd) sd1 := by
  intro p' hp' d' hd'
  rw [simF_other, hsd p' hp' d' hd']
  intro e'
  exact hs (data_inj hp' hp hd' hd e').1.symm

theorem update_at {D : Dims} {s n : Nat} {r r1 : MemF} (h : RecIs D s r r1) {v v1 : F32}
    (hv : v1 = v) : RecIs D s (update r (n + s * D.N) v) (update r1 (n + 0 * (slices D 1).N) v1) := by
  intro i hi
  rw [Nat.zero_mul, Nat.add_zero]
  by_cases e : i = n
  · rw [e, Function.update_self, Function.update_self, hv]
  · rw [Function.update_of_ne e, Function.update_of_ne (by omega), h i hi]

theorem update_off {D : Dims} {s s' n : Nat} (hs : s' ≠ s) (hn : n < D.N) {r r1 : MemF}
    (h : RecIs D s r r1) (v : F32) : RecIs D s (update r (n + s' * D.N) v) r1 := by
  intro i hi
  rw [Function.update_of_ne, h i hi]
  have := Tomopy.Iter.other_slice (s := s') hi (Ne.symm hs)
  omega

theorem recIs_zero {D : Dims} {s n : Nat} (hn : n < D.N) {r r1 : MemF} (h : RecIs D s r r1) :
    r1 (n + 0 * (slices D 1).N) = r (n + s * D.N) := by
  rw [Nat.zero_mul, Nat.add_zero, h n hn]

theorem spreadF_at {f : Bool} {D : Dims} {s : Nat} {ray : Segs ℚ} (hr : ∀ e ∈ ray, e.1 < D.N)
    {r r1 : MemF} (h : RecIs D s r r1) {v v1 : F32} (hv : v1 = v) :
    RecIs D s (spreadF f D s ray v r) (spreadF f (slices D 1) 0 ray v1 r1) := by
  subst hv
  refine foldl_rel (RecIs D s) _ _ ray (fun e he a b hab => ?_) _ _ h
  exact update_at hab (by rw [recIs_zero (hr e he) hab])

theorem spreadF_off {f : Bool} {D : Dims} {s s' : Nat} (hs : s' ≠ s) {ray : Segs ℚ}
    (hr : ∀ e ∈ ray, e.1 < D.N) {r r1 : MemF} (h : RecIs D s r r1) (v : F32) :
    RecIs D s (spreadF f D s' ray v r) r1 :=
  foldl_inv _ (fun m => RecIs D s m r1) ray r (fun _ e he hm => update_off hs (hr e he) hm _) h

/-- Iterations of related functions. -/
theorem iterate_rel {α β : Type*} (R : α → β → Prop) {f : α → α} {f' : β → β}
    (h : ∀ a b, R a b → R (f a) (f' b)) : ∀ (n : Nat) (a : α) (b : β), R a b → R (f^[n] a) (f'^[n] b) := by
  intro n
  induction n with
  | zero => intro a b hab; exact hab
  | succ n ih => intro a b hab; exact ih _ _ (h a b hab)

theorem slices_empty {D : Dims} (h : D.dt = 0 ∨ D.dx = 0) :
    (slices D 1).dy = 0 ∨ (slices D 1).dt = 0 ∨ (slices D 1).dx = 0 := Or.inr h

theorem slices_full {D : Dims} (h : ¬ (D.dt = 0 ∨ D.dx = 0)) :
    ¬ ((slices D 1).dy = 0 ∨ (slices D 1).dt = 0 ∨ (slices D 1).dx = 0) :=
  not_or.mpr ⟨one_ne_zero, h⟩

/-! ## fbp -/

/-- **C182, fbp.** -/
theorem fbpF_alone (f : Bool) : AloneF AnyCentre (fun D g data recon => some (fbpF f D g data recon)) := by
  intro D g data recon hg _ s hs data1 recon1 hd hr
  refine ⟨_, _, rfl, rfl, ?_⟩
  unfold fbpF
  by_cases h0 : D.dt = 0 ∨ D.dx = 0
  · rw [if_pos (Or.inr h0), if_pos (slices_empty h0)]
    exact hr
  rw [if_neg (by omega), if_neg (slices_full h0)]
  have := foldl_slice (RecIs D s) (fun (m : MemF) s => (List.range D.dt).foldl (fun m p =>
    (List.range D.dx).foldl (fun m d => spreadF f D s (g s p d) (data (D.data s p d)) m) m) m)
    (fun m => (List.range D.dt).foldl (fun m p => (List.range D.dx).foldl (fun m d =>
      spreadF f (slices D 1) 0 (g s p d) (data1 ((slices D 1).data 0 p d)) m) m) m) s (List.range D.dy)
    List.nodup_range ?_ ?_ recon recon1 hr
  · rwa [if_pos (List.mem_range.mpr hs)] at this
  · intro t ht hts a b hab
    refine foldl_inv _ (fun m => RecIs D s m b) _ _ (fun m p hp hm => ?_) hab
    refine foldl_inv _ (fun m => RecIs D s m b) _ _ (fun m d hd hm => ?_) hm
    exact spreadF_off hts (hg t (List.mem_range.mp ht) p (List.mem_range.mp hp) d (List.mem_range.mp hd)) hm _
  · intro a b hab
    refine foldl_rel (RecIs D s) _ _ _ (fun p hp a b hab => ?_) _ _ hab
    refine foldl_rel (RecIs D s) _ _ _ (fun d hdd a b hab => ?_) _ _ hab
    exact spreadF_at (hg s hs p (List.mem_range.mp hp) d (List.mem_range.mp hdd)) hab
      (datIs_data hd (List.mem_range.mp hp) (List.mem_range.mp hdd))

/-! ## art -/

theorem artStepF_at {k : OMode} {D : Dims} {g : Geom ℚ} {data data1 : MemF} {s : Nat}
    (hd : DatIs D s data data1) (hs : s < D.dy) (hc : OneCentre D g) {p d : Nat} (hp : p < D.dt)
    (hdx : d < D.dx) (hr : ∀ e ∈ g 0 p d, e.1 < D.N) {st st1 : MemF × MemF} (h : StRel D s st st1) :
    StRel D s (artStepF k D g data st p d s) (artStepF k (slices D 1) (fun _ => g s) data1 st1 p d 0) := by
  have e := hc s hs
  unfold artStepF
  rw [e]
  split
  · have hsd := simF_at (f := k.sim) hr h.1 h.2 hp hdx
    refine ⟨spreadF_at hr h.1 ?_, hsd⟩
    rw [datIs_data hd hp hdx, hsd p hp d hdx]
  · exact h

theorem artStepF_off {k : OMode} {D : Dims} {g : Geom ℚ} {data : MemF} {s s' : Nat} (hs : s' ≠ s)
    {p d : Nat} (hp : p < D.dt) (hdx : d < D.dx) (hr : ∀ e ∈ g 0 p d, e.1 < D.N) {st st1 : MemF × MemF}
    (h : StRel D s st st1) : StRel D s (artStepF k D g data st p d s') st1 := by
  unfold artStepF
  split
  · exact ⟨spreadF_off hs hr h.1 _, simF_off hs h.2 hp hdx⟩
  · exact h

/-- **C182, art.**  All slices must have the same centre because `art` uses the first one for all. -/
theorem artF_alone (k : OMode) (num_iter : Nat) :
    AloneF OneCentre (fun D g data recon => some (artF k D g data num_iter recon)) := by
  intro D g data recon hg hc s hs data1 recon1 hd hr
  refine ⟨_, _, rfl, rfl, ?_⟩
  unfold artF
  by_cases h0 : D.dt = 0 ∨ D.dx = 0
  · rw [if_pos (Or.inr h0), if_pos (slices_empty h0)]
    exact hr
  rw [if_neg (by omega), if_neg (slices_full h0)]
  refine iterate_rel (RecIs D s) (fun a b hab => ?_) num_iter _ _ hr
  unfold artIterF
  refine (foldl_rel (StRel D s) _ _ (List.range D.dt) (fun p hp a b hab => ?_) _ _ ?_ : StRel D s _ _).1
  · refine foldl_rel (StRel D s) _ _ _ (fun d hdd a b hab => ?_) _ _ hab
    have hin := hg 0 (by omega) p (List.mem_range.mp hp) d (List.mem_range.mp hdd)
    have := foldl_slice (StRel D s) (fun st s => artStepF k D g data st p d s)
      (fun st => artStepF k (slices D 1) (fun _ => g s) data1 st p d 0) s (List.range D.dy) List.nodup_range
      (fun t _ hts a b hab => artStepF_off hts (List.mem_range.mp hp) (List.mem_range.mp hdd) hin hab)
      (fun a b hab => artStepF_at hd hs hc (List.mem_range.mp hp) (List.mem_range.mp hdd) hin hab) a b hab
    rwa [if_pos (List.mem_range.mpr hs)] at this
  · exact ⟨hab, fun _ _ _ _ => rfl⟩

/-! ## osem and bart -/

/-- `simdata`, `sum_dist` and `update` of the two calls. -/
structure AccRelF (D : Dims) (s : Nat) (a a1 : AccF) : Prop where
  sd : SdRel D s a.sd a1.sd
  sumd : a1.sumd = a.sumd
  upd : a1.upd = a.upd

theorem accBlockF_at {k : OMode} {D : Dims} {g : Geom ℚ} {data data1 : MemF} {s : Nat}
    (hd : DatIs D s data data1) {r r1 : MemF} (hr : RecIs D s r r1) {ps : List Nat} (hps : ∀ p ∈ ps, p < D.dt)
    (hg : ∀ p < D.dt, ∀ d < D.dx, ∀ e ∈ g s p d, e.1 < D.N) {sd sd1 : MemF} (hsd : SdRel D s sd sd1) :
    AccRelF D s (accBlockF k D g s ps data r sd) (accBlockF k (slices D 1) (fun _ => g s) 0 ps data1 r1 sd1) := by
  unfold accBlockF
  refine foldl_rel (AccRelF D s) _ _ ps (fun p hp a b hab => ?_) _ _ ⟨hsd, rfl, rfl⟩
  refine foldl_rel (AccRelF D s) _ _ _ (fun d hdd a b hab => ?_) _ _ hab
  have hdd := List.mem_range.mp hdd
  have h := simF_at (f := k.sim) (hg p (hps p hp) d hdd) hr hab.sd (hps p hp) hdd
  refine ⟨h, ?_, ?_⟩
  · show addLenF _ _ = addLenF _ _
    rw [hab.sumd]
  · show (if _ then _ else _) = (if _ then _ else _)
    rw [hab.upd, datIs_data hd (hps p hp) hdd, h p (hps p hp) d hdd]

theorem bartAccF_at {k : OMode} {D : Dims} {g : Geom ℚ} {data data1 : MemF} {s : Nat}
    (hd : DatIs D s data data1) {r r1 : MemF} (hr : RecIs D s r r1) {ps : List Nat} (hps : ∀ p ∈ ps, p < D.dt)
    (hg : ∀ p < D.dt, ∀ d < D.dx, ∀ e ∈ g s p d, e.1 < D.N) {sd sd1 : MemF} (hsd : SdRel D s sd sd1) :
    AccRelF D s (bartAccF k D g s ps data r sd) (bartAccF k (slices D 1) (fun _ => g s) 0 ps data1 r1 sd1) := by
  unfold bartAccF
  refine foldl_rel (AccRelF D s) _ _ ps (fun p hp a b hab => ?_) _ _ ⟨hsd, rfl, rfl⟩
  refine foldl_rel (AccRelF D s) _ _ _ (fun d hdd a b hab => ?_) _ _ hab
  have hdd := List.mem_range.mp hdd
  have h := simF_at (f := k.sim) (hg p (hps p hp) d hdd) hr hab.sd (hps p hp) hdd
  refine ⟨h, ?_, ?_⟩
  · show addLenF _ _ = addLenF _ _
    rw [hab.sumd]
  · show (if _ then _ else _) = (if _ then _ else _)
    rw [hab.upd, datIs_data hd (hps p hp) hdd, h p (hps p hp) d hdd]

theorem accBlockF_off {k : OMode} {D : Dims} {g : Geom ℚ} {data : MemF} {s s' : Nat} (hs : s' ≠ s)
    {r : MemF} {ps : List Nat} (hps : ∀ p ∈ ps, p < D.dt) {sd sd1 : MemF} (hsd : SdRel D s sd sd1) :
    SdRel D s (accBlockF k D g s' ps data r sd).sd sd1 := by
  unfold accBlockF
  refine foldl_inv _ (fun a : AccF => SdRel D s a.sd sd1) ps _ (fun a p hp ha => ?_) hsd
  refine foldl_inv _ (fun a : AccF => SdRel D s a.sd sd1) _ _ (fun a d hd ha => ?_) ha
  exact simF_off hs ha (hps p hp) (List.mem_range.mp hd)

theorem bartAccF_off {k : OMode} {D : Dims} {g : Geom ℚ} {data : MemF} {s s' : Nat} (hs : s' ≠ s)
    {r : MemF} {ps : List Nat} (hps : ∀ p ∈ ps, p < D.dt) {sd sd1 : MemF} (hsd : SdRel D s sd sd1) :
    SdRel D s (bartAccF k D g s' ps data r sd).sd sd1 := by
  unfold bartAccF
  refine foldl_inv _ (fun a : AccF => SdRel D s a.sd sd1) ps _ (fun a p hp ha => ?_) hsd
  refine foldl_inv _ (fun a : AccF => SdRel D s a.sd sd1) _ _ (fun a d hd ha => ?_) ha
  exact simF_off hs ha (hps p hp) (List.mem_range.mp hd)

theorem finF_at {D : Dims} {s : Nat} {a a1 : AccF} (ha : AccRelF D s a a1) {r r1 : MemF}
    (hr : RecIs D s r r1) : RecIs D s (finF D s a r) (finF (slices D 1) 0 a1 r1) := by
  unfold finF
  refine foldl_rel (RecIs D s) _ _ (List.range D.N) (fun n hn x y hxy => ?_) _ _ hr
  rw [ha.sumd, ha.upd]
  split
  · exact update_at hxy (by rw [recIs_zero (List.mem_range.mp hn) hxy])
  · exact hxy

theorem bartFinF_at {D : Dims} {s : Nat} {a a1 : AccF} (ha : AccRelF D s a a1) {r r1 : MemF}
    (hr : RecIs D s r r1) : RecIs D s (bartFinF D s a r) (bartFinF (slices D 1) 0 a1 r1) := by
  unfold bartFinF
  refine foldl_rel (RecIs D s) _ _ (List.range D.N) (fun n hn x y hxy => ?_) _ _ hr
  rw [ha.sumd, ha.upd]
  split
  · exact update_at hxy (by rw [recIs_zero (List.mem_range.mp hn) hxy])
  · exact hxy

theorem finF_off {D : Dims} {s s' : Nat} (hs : s' ≠ s) {a : AccF} {r r1 : MemF} (hr : RecIs D s r r1) :
    RecIs D s (finF D s' a r) r1 := by
  refine foldl_inv _ (fun m => RecIs D s m r1) _ _ (fun m n hn hm => ?_) hr
  split
  · exact update_off hs (List.mem_range.mp hn) hm _
  · exact hm

theorem bartFinF_off {D : Dims} {s s' : Nat} (hs : s' ≠ s) {a : AccF} {r r1 : MemF} (hr : RecIs D s r r1) :
    RecIs D s (bartFinF D s' a r) r1 := by
  refine foldl_inv _ (fun m => RecIs D s m r1) _ _ (fun m n hn hm => ?_) hr
  split
  · exact update_off hs (List.mem_range.mp hn) hm _
  · exact hm

/-- The loops over slices and subsets. -/
theorem iter_alone {D : Dims} {s : Nat} (hs : s < D.dy) {bs : List (List Nat)}
    {blk : Nat → MemF × MemF → List Nat → MemF × MemF} {blk1 : MemF × MemF → List Nat → MemF × MemF}
    (hat : ∀ ps ∈ bs, ∀ a b, StRel D s a b → StRel D s (blk s a ps) (blk1 b ps))
    (hoff : ∀ s', s' ≠ s → ∀ ps ∈ bs, ∀ a b, StRel D s a b → StRel D s (blk s' a ps) b)
    {r r1 : MemF} (hr : RecIs D s r r1) :
    RecIs D s ((List.range D.dy).foldl (fun st s => bs.foldl (blk s) st) (r, fun _ => .fin 0)).1
      ((List.range 1).foldl (fun st _ => bs.foldl blk1 st) (r1, fun _ => .fin 0)).1 := by
  have := foldl_slice (StRel D s) (fun st s => bs.foldl (blk s) st) (fun st => bs.foldl blk1 st) s
    (List.range D.dy) List.nodup_range
    (fun t _ hts a b hab => foldl_inv _ (fun st => StRel D s st b) bs a (fun st ps hps h => hoff t hts ps hps st b h) hab)
    (fun a b hab => foldl_rel (StRel D s) _ _ bs (fun ps hps a b hab => hat ps hps a b hab) a b hab)
    (r, fun _ => .fin 0) (r1, fun _ => .fin 0) ⟨hr, fun _ _ _ _ => rfl⟩
  rw [if_pos (List.mem_range.mpr hs)] at this
  exact this.1

theorem blocks_ok {D : Dims} {nb : Nat} {ind : List Nat} (hb : BlockArgs D.dt nb ind) :
    nb ≠ 0 ∧ ∃ bs, (subsets D.dt nb).mapM (subsetProjs nb ind) = some bs ∧ BlocksOk D bs := by
  rcases hb with h | ⟨h1, h2⟩
  · subst h
    exact ⟨one_ne_zero, _, Tomopy.Iter.blocks_single _ _, Tomopy.Iter.blocksOk_single D⟩
  · exact ⟨by omega, _, (Tomopy.Iter.blocks_perm h1 h2).1, Tomopy.Iter.blocksOk_perm h1 h2⟩

/-- The subsets are a permutation of the projections or a single one. -/
def AnyCentreBlocks (nb : Nat) (ind : List Nat) (D : Dims) (_ : Geom ℚ) : Prop := BlockArgs D.dt nb ind

/-- **C182, osem.** -/
theorem osemF_alone (k : OMode) (num_iter nb : Nat) (ind : List Nat) :
    AloneF (AnyCentreBlocks nb ind) (fun D g data recon => osemF k D g data num_iter nb ind recon) := by
  intro D g data recon hg hb s hs data1 recon1 hd hr
  obtain ⟨h1, bs, hbs, hok⟩ := blocks_ok hb
  dsimp only
  unfold osemF
  by_cases h0 : D.dt = 0 ∨ D.dx = 0
  · rw [if_pos (Or.inr h0), if_pos (slices_empty h0)]
    exact ⟨_, _, rfl, rfl, hr⟩
  rw [if_neg (by omega), if_neg (slices_full h0), if_neg h1, if_neg h1]
  show ∃ o o1, ((subsets D.dt nb).mapM (subsetProjs nb ind)).map _ = some o ∧
    ((subsets D.dt nb).mapM (subsetProjs nb ind)).map _ = some o1 ∧ _
  rw [hbs]
  refine ⟨_, _, rfl, rfl, ?_⟩
  refine iterate_rel (RecIs D s) (fun a b hab => ?_) num_iter _ _ hr
  refine iter_alone hs (blk := osBlockF k D g data) (blk1 := osBlockF k (slices D 1) (fun _ => g s) data1 0)
    (fun ps hps a b hab => ?_) (fun s' hs' ps hps a b hab => ?_) hab
  · have := accBlockF_at (k := k) hd hab.1 (hok.lt ps hps) (hg s hs) hab.2
    exact ⟨finF_at this hab.1, this.sd⟩
  · exact ⟨finF_off hs' hab.1, accBlockF_off hs' (hok.lt ps hps) hab.2⟩

/-- **C182, bart.** -/
theorem bartF_alone (k : OMode) (num_iter nb : Nat) (ind : List Nat) :
    AloneF (AnyCentreBlocks nb ind) (fun D g data recon => bartF k D g data num_iter nb ind recon) := by
  intro D g data recon hg hb s hs data1 recon1 hd hr
  obtain ⟨h1, bs, hbs, hok⟩ := blocks_ok hb
  dsimp only
  unfold bartF
  by_cases h0 : D.dt = 0 ∨ D.dx = 0
  · rw [if_pos (Or.inr h0), if_pos (slices_empty h0)]
    exact ⟨_, _, rfl, rfl, hr⟩
  rw [if_neg (by omega), if_neg (slices_full h0), if_neg h1, if_neg h1]
  show ∃ o o1, ((subsets D.dt nb).mapM (subsetProjs nb ind)).map _ = some o ∧
    ((subsets D.dt nb).mapM (subsetProjs nb ind)).map _ = some o1 ∧ _
  rw [hbs]
  refine ⟨_, _, rfl, rfl, ?_⟩
  refine iterate_rel (RecIs D s) (fun a b hab => ?_) num_iter _ _ hr
  refine iter_alone hs (blk := bartBlockF k D g data) (blk1 := bartBlockF k (slices D 1) (fun _ => g s) data1 0)
    (fun ps hps a b hab => ?_) (fun s' hs' ps hps a b hab => ?_) hab
  · have := bartAccF_at (k := k) hd hab.1 (hok.lt ps hps) (hg s hs) hab.2
    exact ⟨bartFinF_at this hab.1, this.sd⟩
  · exact ⟨bartFinF_off hs' hab.1, bartAccF_off hs' (hok.lt ps hps) hab.2⟩

/-! ## What follows -/

/-- **C182, bad values elsewhere.**  NaN, infinities or any other values in other slices of the data or of
the start do not change a slice. -/
theorem AloneF.elsewhere {G : Dims → Geom ℚ → Prop} {F : Dims → Geom ℚ → MemF → MemF → Option MemF}
    (h : AloneF G F) {D : Dims} {g : Geom ℚ} (hg : Inside D g) (hG : G D g) {s : Nat} (hs : s < D.dy)
    {data data' recon recon' : MemF}
    (hd : ∀ n < D.dt * D.dx, data (n + s * (D.dt * D.dx)) = data' (n + s * (D.dt * D.dx)))
    (hr : ∀ n < D.N, recon (n + s * D.N) = recon' (n + s * D.N)) :
    ∃ o o', F D g data recon = some o ∧ F D g data' recon' = some o' ∧
      ∀ n < D.N, o (n + s * D.N) = o' (n + s * D.N) := by
  obtain ⟨o, o1, e1, e2, e3⟩ := h D g data recon hg hG s hs (fun n => data (n + s * (D.dt * D.dx)))
    (fun n => recon (n + s * D.N)) (fun _ _ => rfl) (fun _ _ => rfl)
  obtain ⟨o', o1', f1, f2, f3⟩ := h D g data' recon' hg hG s hs (fun n => data (n + s * (D.dt * D.dx)))
    (fun n => recon (n + s * D.N)) hd hr
  rw [e2] at f2
  obtain rfl := Option.some.inj f2
  exact ⟨o, o', e1, f1, fun n hn => by rw [← e3 n hn, ← f3 n hn]⟩

/-- **C182, chunks.**  The result of a call on the slices `c, …, c + k - 1` is, bit for bit, those slices of
the result of the call on all. -/
theorem AloneF.chunk {G : Dims → Geom ℚ → Prop} {F : Dims → Geom ℚ → MemF → MemF → Option MemF}
    (h : AloneF G F) {D : Dims} {g : Geom ℚ} (hg : Inside D g) (hG : G D g) {c k : Nat} (hck : c + k ≤ D.dy)
    (hk : 0 < k) (hG' : G (slices D k) fun s => g (c + s)) (data recon : MemF) :
    ∃ o o', F D g data recon = some o ∧
      F (slices D k) (fun s => g (c + s)) (fun n => data (n + c * (D.dt * D.dx))) (fun n => recon (n + c * D.N)) =
        some o' ∧ ∀ s < k, ∀ n < D.N, o' (n + s * D.N) = o (n + (c + s) * D.N) := by
  have hg' : Inside (slices D k) fun s => g (c + s) := fun s (hs : s < k) => hg (c + s) (by omega)
  have key : ∀ s < k, ∃ o o', F D g data recon = some o ∧
      F (slices D k) (fun s => g (c + s)) (fun n => data (n + c * (D.dt * D.dx))) (fun n => recon (n + c * D.N)) =
        some o' ∧ ∀ n < D.N, o' (n + s * D.N) = o (n + (c + s) * D.N) := by
    intro s hs
    obtain ⟨o, o1, e1, e2, e3⟩ := h D g data recon hg hG (c + s) (by omega)
      (fun n => data (n + (c + s) * (D.dt * D.dx))) (fun n => recon (n + (c + s) * D.N)) (fun _ _ => rfl)
      (fun _ _ => rfl)
    obtain ⟨o', o1', f1, f2, f3⟩ := h (slices D k) (fun s => g (c + s)) (fun n => data (n + c * (D.dt * D.dx)))
      (fun n => recon (n + c * D.N)) hg' hG' s hs (fun n => data (n + (c + s) * (D.dt * D.dx)))
      (fun n => recon (n + (c + s) * D.N)) (fun n _ => by
        show data _ = data (n + s * (D.dt * D.dx) + c * (D.dt * D.dx))
        congr 1; ring) (fun n _ => by
        show recon _ = recon (n + s * D.N + c * D.N)
        congr 1; ring)
    have f2' : F (slices D 1) (fun _ => g (c + s)) (fun n => data (n + (c + s) * (D.dt * D.dx)))
      (fun n => recon (n + (c + s) * D.N)) = some o1' := f2
    rw [e2] at f2'
    obtain rfl := Option.some.inj f2'
    exact ⟨o, o', e1, f1, fun n hn => by rw [← e3 n hn]; exact (f3 n hn).symm⟩
  obtain ⟨o, o', e1, e2, -⟩ := key 0 hk
  refine ⟨o, o', e1, e2, fun s hs n hn => ?_⟩
  obtain ⟨o2, o2', f1, f2, f3⟩ := key s hs
  rw [e1] at f1
  rw [e2] at f2
  rw [Option.some.inj f1, Option.some.inj f2]
  exact f3 n hn

/-- **C182, project.**  The projections of a slice are those of the slice alone. -/
theorem projectM_alone {f : Bool} {D : Dims} {g : Geom ℚ} (hg : Inside D g) (hc : OneCentre D g) {s : Nat}
    (hs : s < D.dy) {obj obj1 : MemF} (ho : RecIs D s obj obj1) {p d : Nat} (hp : p < D.dt) (hd : d < D.dx) :
    projectM f D g obj (fun _ => .fin 0) (D.data s p d) =
      projectM f (slices D 1) (fun _ => g s) obj1 (fun _ => .fin 0) ((slices D 1).data 0 p d) := by
  rw [projectM_val hs hp hd, projectM_val (D := slices D 1) one_pos hp hd]
  unfold lineF
  rw [hc s hs]
  refine foldl_rel (fun a b : F32 => a = b) _ _ _ (fun e he a b hab => ?_) _ _ rfl
  rw [hab, recIs_zero (hg 0 (by omega) p hp d hd e he) ho]

/-! ## Examples -/

theorem ownG_inside (dy dt dx : Nat) : Inside ⟨dy, dt, dx, 4⟩ ownG :=
  fun s _ p _ d _ e he => ((ownG_ok s p d).1 e he).1

/-- A NaN in the first slice of the data spoils that slice, and the second is what it is without. -/
example :
    (bartF ⟨false, false, false⟩ ⟨2, 2, 1, 4⟩ ownG (fun i => if i = 0 then .nan else .fin 1) 2 1 [0]
      (fun _ => .fin 0)).map (fun o => o 0) = some .nan ∧
    (∃ o o', bartF ⟨false, false, false⟩ ⟨2, 2, 1, 4⟩ ownG (fun i => if i = 0 then .nan else .fin 1) 2 1 [0]
        (fun _ => .fin 0) = some o ∧
      bartF ⟨false, false, false⟩ ⟨2, 2, 1, 4⟩ ownG (fun _ => .fin 1) 2 1 [0] (fun _ => .fin 0) = some o' ∧
      ∀ n < 4, o (n + 1 * 4) = o' (n + 1 * 4)) ∧
    (bartF ⟨false, false, false⟩ ⟨2, 2, 1, 4⟩ ownG (fun _ => .fin 1) 2 1 [0] (fun _ => .fin 0)).map
      (fun o => decide (o 5 = .fin 0)) = some false := by
  refine ⟨by decide +kernel, ?_, by decide +kernel⟩
  refine (bartF_alone ⟨false, false, false⟩ 2 1 [0]).elsewhere (D := ⟨2, 2, 1, 4⟩) (ownG_inside 2 2 1) (Or.inl rfl)
    (s := 1) (by decide) (fun n _ => ?_) (fun _ _ => rfl)
  exact if_neg (by show n + 1 * (2 * 1) ≠ 0; omega)

/-- The hypotheses of the chunks: the second of two slices as a chunk of its own. -/
example (k : OMode) (data recon : MemF) : ∃ o o', osemF k ⟨2, 2, 1, 4⟩ ownG data 3 2 [1, 0] recon = some o ∧
    osemF k ⟨1, 2, 1, 4⟩ (fun s => ownG (1 + s)) (fun n => data (n + 1 * (2 * 1))) 3 2 [1, 0]
      (fun n => recon (n + 1 * 4)) = some o' ∧ ∀ s < 1, ∀ n < 4, o' (n + s * 4) = o (n + (1 + s) * 4) :=
  (osemF_alone k 3 2 [1, 0]).chunk (D := ⟨2, 2, 1, 4⟩) (ownG_inside 2 2 1)
    (Or.inr ⟨by decide, by decide⟩) (c := 1) (k := 1) (by decide) one_pos (Or.inr ⟨by decide, by decide⟩) data recon

end Tomopy.Fl
