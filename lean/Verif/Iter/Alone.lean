import Verif.Iter.Osem
import Verif.Iter.Art
import Verif.Iter.Grad
import Verif.Iter.Project

/-! # Slices are reconstructed on their own (C170)

A call of a reconstruction function on several slices gives in every slice what a call on this slice alone
gives. -/

set_option linter.unusedSectionVars false

namespace Tomopy.Iter

open Function (update)

variable {K : Type} [Field K] [LinearOrder K] [IsStrictOrderedRing K]

/-! ## Specification: the arguments of the call on one slice -/

/-- Sizes of the call on one slice. -/
def Dims.one (D : Dims) : Dims := ⟨1, D.dt, D.dx, D.N⟩

/-- `m1` holds slice `s` of the data `m`. -/
def DatAt (D : Dims) (s : Nat) (m m1 : Mem K) : Prop :=
  ∀ n < D.dt * D.dx, m1 n = m (n + s * (D.dt * D.dx))

/-- `r1` holds slice `s` of the image `r`. -/
def SameAt (D : Dims) (s : Nat) (r r1 : Mem K) : Prop := ∀ n < D.N, r1 n = r (n + s * D.N)

/-- The same for all slices. -/
def DatAll (D : Dims) (m : Mem K) (ms : Nat → Mem K) : Prop := ∀ s < D.dy, DatAt D s m (ms s)

/-- The same for all slices. -/
def SameAll (D : Dims) (r : Mem K) (rs : Nat → Mem K) : Prop := ∀ s < D.dy, SameAt D s r (rs s)

/-- The rays for the centre of slice `s`. -/
def geoAt (s : Nat) (g : Geom K) : Geom K := fun _ => g s

/-- `f` on all slices and `f1 s` on slice `s` alone agree: `f` gives an image exactly if all `f1 s` do, and
its slices are those images. -/
def Alone (D : Dims) (f : Option (Mem K)) (f1 : Nat → Option (Mem K)) : Prop :=
  (f = none ↔ ∃ s < D.dy, f1 s = none) ∧
  ∀ out, f = some out → ∀ s < D.dy, ∃ o, f1 s = some o ∧ SameAt D s out o

/-! ## Simulation -/

theorem datAt_data {D : Dims} {s p d : Nat} {m m1 : Mem K} (h : DatAt D s m m1) (hp : p < D.dt)
    (hd : d < D.dx) : m1 (D.one.data 0 p d) = m (D.data s p d) := by
  have e : D.one.data 0 p d = d + p * D.dx := by
    unfold Dims.data Dims.one
    ring
  have hlt : d + p * D.dx < D.dt * D.dx := by
    have : (p + 1) * D.dx ≤ D.dt * D.dx := Nat.mul_le_mul_right _ hp
    have e3 : (p + 1) * D.dx = p * D.dx + D.dx := by ring
    omega
  rw [e, h _ hlt]
  unfold Dims.data
  congr 1
  ring

theorem lineSum_at {D : Dims} {s : Nat} {ray : Segs K} (hr : ∀ e ∈ ray, e.1 < D.N) {r r1 : Mem K}
    (h : SameAt D s r r1) : lineSum D.N 0 ray r1 = lineSum D.N s ray r := by
  unfold lineSum
  congr 1
  refine List.map_congr_left fun e he => ?_
  rw [Nat.zero_mul, Nat.add_zero, h e.1 (hr e he)]

/-- Both fail, or both succeed with related results. -/
def OptRel {α β : Type} (R : α → β → Prop) : Option α → Option β → Prop
  | none, none => True
  | some a, some b => R a b
  | _, _ => False

theorem optRel_bind {α β γ δ : Type} {R : α → β → Prop} {Q : γ → δ → Prop} {x : Option α} {y : Option β}
    (h : OptRel R x y) {f : α → Option γ} {f' : β → Option δ} (hf : ∀ a b, R a b → OptRel Q (f a) (f' b)) :
    OptRel Q (x.bind f) (y.bind f') := by
  cases x <;> cases y <;> simp_all [OptRel]

theorem optRel_foldlM {α β τ : Type} {R : α → β → Prop} (f : α → τ → Option α) (f' : β → τ → Option β) :
    ∀ (l : List τ), (∀ t ∈ l, ∀ a b, R a b → OptRel R (f a t) (f' b t)) → ∀ a b, R a b →
      OptRel R (l.foldlM f a) (l.foldlM f' b) := by
  intro l
  induction l with
  | nil => intro _ a b h; exact h
  | cons t l ih =>
    intro h a b hab
    rw [List.foldlM_cons, List.foldlM_cons]
    exact optRel_bind (h t (by simp) a b hab) fun a b hab =>
      ih (fun t ht => h t (List.mem_cons_of_mem _ ht)) a b hab

/-- Accumulators of the two calls. -/
structure AccRel (D : Dims) (s : Nat) (a a1 : Acc K) : Prop where
  sd : ∀ p < D.dt, ∀ d < D.dx, a1.sd (D.one.data 0 p d) = a.sd (D.data s p d)
  sumd : a1.sumd = a.sumd
  upd : a1.upd = a.upd

theorem calcSimdata_at {D : Dims} {s : Nat} {ray : Segs K} (hr : ∀ e ∈ ray, e.1 < D.N) {r r1 sd sd1 : Mem K}
    (h : SameAt D s r r1)
    (hsd : ∀ p < D.dt, ∀ d < D.dx, sd1 (D.one.data 0 p d) = sd (D.data s p d)) {p d : Nat} (hp : p < D.dt)
    (hd : d < D.dx) : ∀ p' < D.dt, ∀ d' < D.dx,
      calcSimdata D.one 0 p d ray r1 sd1 (D.one.data 0 p' d') =
        calcSimdata D s p d ray r sd (D.data s p' d') := by
  intro p' hp' d' hd'
  rw [calcSimdata_apply, calcSimdata_apply, hsd p' hp' d' hd']
  congr 1
  by_cases e : p = p' ∧ d = d'
  · obtain ⟨rfl, rfl⟩ := e
    rw [if_pos rfl, if_pos rfl]
    exact lineSum_at hr h
  · rw [if_neg, if_neg]
    · intro e'
      exact e (data_inj hp hp' hd hd' e').2
    · intro e'
      exact e (data_inj (D := D.one) hp hp' hd hd' e').2

theorem foldl_congr_mem {α β : Type} (f f' : β → α → β) : ∀ (l : List α) (b : β),
    (∀ a ∈ l, ∀ b, f b a = f' b a) → l.foldl f b = l.foldl f' b := by
  intro l
  induction l with
  | nil => intro b _; rfl
  | cons a l ih =>
    intro b h
    rw [List.foldl_cons, List.foldl_cons, h a (by simp), ih _ fun a ha => h a (List.mem_cons_of_mem _ ha)]

theorem accRay_at (mt : Method K) {D : Dims} {s p d : Nat} {ray : Segs K} (hr : ∀ e ∈ ray, e.1 < D.N)
    {data data1 : Mem K} (hdat : DatAt D s data data1) {r r1 : Mem K} (h : SameAt D s r r1) (hp : p < D.dt)
    (hd : d < D.dx) {a a1 : Acc K} (ha : AccRel D s a a1) :
    OptRel (AccRel D s) (accRay mt D s p d ray data r a)
      (accRay mt D.one 0 p d ray data1 r1 a1) := by
  have hc := calcSimdata_at hr h ha.sd hp hd
  unfold accRay
  by_cases h2 : sumDist2 ray ≠ 0
  · rw [if_pos h2, if_pos h2]
    rw [datAt_data hdat hp hd, hc p hp d hd]
    cases mt.ratio (data (D.data s p d)) (calcSimdata D s p d ray r a.sd (D.data s p d)) (sumDist2 ray) with
    | none => trivial
    | some u =>
      refine ⟨hc, ?_, ?_⟩
      · simp only [ha.sumd]
      · simp only [ha.upd]
        refine foldl_congr_mem _ _ _ _ fun e he b => ?_
        rw [Nat.zero_mul, Nat.add_zero, h e.1 (hr e he)]
  · rw [if_neg h2, if_neg h2]
    exact ⟨hc, by simp only [ha.sumd], ha.upd⟩

/-- What the update at the end of a subset must satisfy. -/
def FinAt (D : Dims) (fin fin1 : Nat → Acc K → Mem K → Option (Mem K)) : Prop :=
  ∀ s < D.dy, ∀ (a a1 : Acc K) (r r1 : Mem K), a1.sumd = a.sumd → a1.upd = a.upd → SameAt D s r r1 →
    OptRel (fun r' r1' => SameAt D s r' r1' ∧ ∀ s' < D.dy, s' ≠ s → ∀ n < D.N,
      r' (n + s' * D.N) = r (n + s' * D.N)) (fin s a r) (fin1 0 a1 r1)

theorem pureBlock_at {mt : Method K} {D : Dims} {fin fin1 : Nat → Acc K → Mem K → Option (Mem K)}
    (hf : FinAt D fin fin1) {g : Geom K} {s : Nat} (hs : s < D.dy)
    (hg : ∀ p < D.dt, ∀ d < D.dx, ∀ e ∈ g s p d, e.1 < D.N)
    {data data1 : Mem K} (hdat : DatAt D s data data1) {ps : List Nat} (hps : ∀ p ∈ ps, p < D.dt)
    {r r1 : Mem K} (h : SameAt D s r r1) :
    OptRel (fun r' r1' => SameAt D s r' r1' ∧ ∀ s' < D.dy, s' ≠ s → ∀ n < D.N,
      r' (n + s' * D.N) = r (n + s' * D.N)) (pureBlock mt fin D g data s ps r)
      (pureBlock mt fin1 D.one (geoAt s g) data1 0 ps r1) := by
  unfold pureBlock
  rw [accBlock_eq, accBlock_eq]
  refine optRel_bind (R := AccRel D s) (optRel_foldlM _ _ _ ?_ _ _ ⟨fun _ _ _ _ => rfl, rfl, rfl⟩)
    fun a a1 ha => hf s hs a a1 r r1 ha.sumd ha.upd h
  intro q hq a a1 ha
  have hq' := mem_raysOf.mp hq
  exact accRay_at mt (hg q.1 (hps _ hq'.1) q.2 hq'.2) hdat h (hps _ hq'.1) hq'.2 ha

/-- A loop over the slices whose body changes its own slice only. -/
theorem slices_at {D : Dims} (F : Mem K → Nat → Option (Mem K)) (F1 : Nat → Mem K → Option (Mem K))
    (hF : ∀ s < D.dy, ∀ r r1, SameAt D s r r1 → OptRel (fun r' r1' => SameAt D s r' r1' ∧
      ∀ s' < D.dy, s' ≠ s → ∀ n < D.N, r' (n + s' * D.N) = r (n + s' * D.N)) (F r s) (F1 s r1))
    {r : Mem K} {rs : Nat → Mem K} (h : SameAll D r rs) :
    ((List.range D.dy).foldlM F r = none → ∃ s < D.dy, F1 s (rs s) = none) ∧
    ∀ r', (List.range D.dy).foldlM F r = some r' →
      ∃ rs', (∀ s < D.dy, F1 s (rs s) = some (rs' s)) ∧ SameAll D r' rs' := by
  have key : ∀ (l : List Nat), l.Nodup → (∀ s ∈ l, s < D.dy) → ∀ (r : Mem K),
      (∀ s ∈ l, SameAt D s r (rs s)) →
      (l.foldlM F r = none → ∃ s < D.dy, F1 s (rs s) = none) ∧
      ∀ r', l.foldlM F r = some r' →
        (∀ s ∈ l, ∃ o, F1 s (rs s) = some o ∧ SameAt D s r' o) ∧
        ∀ s' < D.dy, s' ∉ l → ∀ n < D.N, r' (n + s' * D.N) = r (n + s' * D.N) := by
    intro l
    induction l with
    | nil =>
      intro _ _ r _
      refine ⟨fun h => (by cases h), fun r' h => ?_⟩
      cases h
      exact ⟨fun s hs => (List.not_mem_nil hs).elim, fun _ _ _ _ _ => rfl⟩
    | cons s l ih =>
      intro hnd hlt r hr
      rw [List.nodup_cons] at hnd
      have h1 := hF s (hlt s (by simp)) r (rs s) (hr s (by simp))
      rw [List.foldlM_cons]
      cases e : F r s with
      | none =>
        refine ⟨fun _ => ⟨s, hlt s (by simp), ?_⟩, fun r' h => by cases h⟩
        rw [e] at h1
        cases e1 : F1 s (rs s) with
        | none => rfl
        | some _ => rw [e1] at h1; exact h1.elim
      | some r2 =>
        rw [e] at h1
        cases e1 : F1 s (rs s) with
        | none => rw [e1] at h1; exact h1.elim
        | some o =>
          rw [e1] at h1
          obtain ⟨h2, h3⟩ := h1
          obtain ⟨h4, h5⟩ := ih hnd.2 (fun s hs => hlt s (List.mem_cons_of_mem _ hs)) r2 (by
            intro s' hs' n hn
            rw [hr s' (List.mem_cons_of_mem _ hs') n hn, h3 s' (hlt s' (List.mem_cons_of_mem _ hs'))
              (fun e => hnd.1 (e ▸ hs')) n hn])
          refine ⟨h4, fun r' h => ?_⟩
          obtain ⟨h6, h7⟩ := h5 r' h
          refine ⟨?_, ?_⟩
          · intro s' hs'
            rcases List.mem_cons.mp hs' with rfl | hs'
            · refine ⟨o, e1, fun n hn => ?_⟩
              rw [h2 n hn, h7 s' (hlt s' (by simp)) hnd.1 n hn]
            · exact h6 s' hs'
          · intro s' hs' hn' n hn
            rw [h7 s' hs' (fun h => hn' (List.mem_cons_of_mem _ h)) n hn,
              h3 s' hs' (fun e => hn' (by simp [e])) n hn]
  obtain ⟨h1, h2⟩ := key _ List.nodup_range (fun s hs => List.mem_range.mp hs) r
    (fun s hs => h s (List.mem_range.mp hs))
  refine ⟨h1, fun r' hr' => ?_⟩
  obtain ⟨h3, -⟩ := h2 r' hr'
  classical
  refine ⟨fun s => if hs : s < D.dy then (h3 s (List.mem_range.mpr hs)).choose else zeros, ?_, ?_⟩
  · intro s hs
    simp only [dif_pos hs]
    exact (h3 s (List.mem_range.mpr hs)).choose_spec.1
  · intro s hs
    simp only [dif_pos hs]
    exact (h3 s (List.mem_range.mpr hs)).choose_spec.2

/-- Iterations. -/
theorem iterM_at {D : Dims} (F : Mem K → Option (Mem K)) (F1 : Nat → Mem K → Option (Mem K))
    (hF : ∀ r rs, SameAll D r rs → (F r = none → ∃ s < D.dy, F1 s (rs s) = none) ∧
      ∀ r', F r = some r' → ∃ rs', (∀ s < D.dy, F1 s (rs s) = some (rs' s)) ∧ SameAll D r' rs')
    (k : Nat) : ∀ {r : Mem K} {rs : Nat → Mem K}, SameAll D r rs →
    (iterM F k r = none → ∃ s < D.dy, iterM (F1 s) k (rs s) = none) ∧
    ∀ r', iterM F k r = some r' →
      ∃ rs', (∀ s < D.dy, iterM (F1 s) k (rs s) = some (rs' s)) ∧ SameAll D r' rs' := by
  induction k with
  | zero =>
    intro r rs h
    refine ⟨fun h => (by cases h), fun r' h' => ?_⟩
    cases h'
    exact ⟨rs, fun _ _ => rfl, h⟩
  | succ k ih =>
    intro r rs h
    obtain ⟨h1, h2⟩ := hF r rs h
    show ((F r).bind (iterM F k) = none → ∃ s < D.dy, (F1 s (rs s)).bind (iterM (F1 s) k) = none) ∧
      ∀ r', (F r).bind (iterM F k) = some r' →
        ∃ rs', (∀ s < D.dy, (F1 s (rs s)).bind (iterM (F1 s) k) = some (rs' s)) ∧ SameAll D r' rs'
    cases e : F r with
    | none =>
      refine ⟨fun _ => ?_, fun r' h' => by cases h'⟩
      obtain ⟨s, hs, h3⟩ := h1 e
      exact ⟨s, hs, by rw [h3]; rfl⟩
    | some r2 =>
      obtain ⟨rs2, h3, h4⟩ := h2 r2 e
      obtain ⟨h5, h6⟩ := ih h4
      refine ⟨fun h' => ?_, fun r' h' => ?_⟩
      · obtain ⟨s, hs, h7⟩ := h5 h'
        exact ⟨s, hs, by rw [h3 s hs]; exact h7⟩
      · obtain ⟨rs', h7, h8⟩ := h6 r' h'
        exact ⟨rs', fun s hs => by rw [h3 s hs]; exact h7 s hs, h8⟩

theorem alone_of {D : Dims} {f : Option (Mem K)} {f1 : Nat → Option (Mem K)}
    (h : (f = none → ∃ s < D.dy, f1 s = none) ∧
      ∀ r', f = some r' → ∃ rs' : Nat → Mem K, (∀ s < D.dy, f1 s = some (rs' s)) ∧ SameAll D r' rs') :
    Alone D f f1 := by
  obtain ⟨h1, h2⟩ := h
  refine ⟨⟨h1, ?_⟩, ?_⟩
  · rintro ⟨s, hs, hn⟩
    cases e : f with
    | none => rfl
    | some r' =>
      obtain ⟨rs, h3, -⟩ := h2 r' e
      rw [h3 s hs] at hn
      cases hn
  · intro out ho s hs
    obtain ⟨rs, h3, h4⟩ := h2 out ho
    exact ⟨rs s, h3 s hs, h4 s hs⟩

/-! ## Ordered subsets -/

theorem osRun_alone {mt : Method K} {D : Dims} {fin fin1 : Nat → Acc K → Mem K → Option (Mem K)}
    (hok : FinOk fin) (hok1 : FinOk fin1) (hf : FinAt D fin fin1) {g : Geom K}
    (hg : ∀ s < D.dy, ∀ p < D.dt, ∀ d < D.dx, ∀ e ∈ g s p d, e.1 < D.N) {data : Mem K}
    {data1 : Nat → Mem K} (hd : DatAll D data data1) (num_iter : Nat)
    {nb : Nat} {ind : List Nat} (hb : BlockArgs D.dt nb ind) {recon : Mem K} {recon1 : Nat → Mem K}
    (hr : SameAll D recon recon1) :
    Alone D (osRun mt fin D g data num_iter nb ind recon) fun s =>
      osRun mt fin1 D.one (geoAt s g) (data1 s) num_iter nb ind (recon1 s) := by
  have hblocks : ∃ blocks, BlocksOk D blocks ∧
      (∀ (fin : Nat → Acc K → Mem K → Option (Mem K)) (D' : Dims) (g : Geom K) (data recon : Mem K),
        D'.dt = D.dt → osRun mt fin D' g data num_iter nb ind recon =
        if D'.dy = 0 ∨ D'.dt = 0 ∨ D'.dx = 0 then some recon
        else iterM (osIter mt fin D' g data blocks) num_iter recon) := by
    rcases hb with h | ⟨h1, h2⟩
    · subst h
      refine ⟨_, blocksOk_single D, ?_⟩
      intro fin D' g data recon hdt
      rw [← hdt]
      unfold osRun
      split
      · rfl
      · rw [if_neg one_ne_zero, blocks_single]
        rfl
    · refine ⟨_, blocksOk_perm h1 h2, ?_⟩
      intro fin D' g data recon hdt
      rw [← hdt]
      unfold osRun
      split
      · rfl
      · rw [if_neg (by omega), blocks_eq _ _ _ h1 (by rw [h2.length_eq, hdt]; simp)]
        rfl
  obtain ⟨blocks, hbo, hrun⟩ := hblocks
  have hbo1 : BlocksOk D.one blocks := ⟨hbo.nodup, hbo.lt⟩
  simp only [hrun fin D g data recon rfl, hrun fin1 D.one _ _ _ rfl]
  by_cases h0 : D.dy = 0 ∨ D.dt = 0 ∨ D.dx = 0
  · rw [if_pos h0]
    refine alone_of ⟨fun h => (by cases h), fun r' h => ?_⟩
    cases h
    rcases h0 with h0 | h0
    · exact ⟨recon1, fun s hs => absurd hs (by omega), hr⟩
    · refine ⟨recon1, fun s hs => ?_, hr⟩
      exact if_pos (show D.one.dy = 0 ∨ D.one.dt = 0 ∨ D.one.dx = 0 from Or.inr h0)
  · have h01 : ¬ (D.one.dy = 0 ∨ D.one.dt = 0 ∨ D.one.dx = 0) := by
      rintro (h | h)
      · cases h
      · exact h0 (Or.inr h)
    rw [if_neg h0]
    simp only [if_neg h01]
    refine alone_of (iterM_at _ (fun s => osIter mt fin1 D.one (geoAt s g) (data1 s) blocks) ?_
      num_iter (hr))
    intro r rs hrs
    rw [osIter_pure hok hbo]
    have e1 : ∀ s r1, osIter mt fin1 D.one (geoAt s g) (data1 s) blocks r1 =
        blocks.foldlM (fun r ps => pureBlock mt fin1 D.one (geoAt s g) (data1 s) 0 ps r) r1 := by
      intro s r1
      rw [osIter_pure hok1 hbo1]
      show (List.range 1).foldlM _ _ = _
      rw [List.range_one, List.foldlM_cons]
      simp
    simp only [e1]
    refine slices_at (fun r s => blocks.foldlM (fun r ps => pureBlock mt fin D g data s ps r) r)
      (fun s r1 => blocks.foldlM (fun r ps => pureBlock mt fin1 D.one (geoAt s g) (data1 s) 0 ps r) r1)
      ?_ hrs
    intro s hs r r1 h
    have key := optRel_foldlM (R := fun r' r1' => SameAt D s r' r1' ∧ ∀ s' < D.dy, s' ≠ s → ∀ n < D.N,
        r' (n + s' * D.N) = r (n + s' * D.N)) (fun r ps => pureBlock mt fin D g data s ps r)
      (fun r ps => pureBlock mt fin1 D.one (geoAt s g) (data1 s) 0 ps r) blocks ?_ r r1
      ⟨h, fun _ _ _ _ _ => rfl⟩
    · exact key
    · intro ps hps a a1 ha
      have := pureBlock_at (mt := mt) hf hs (hg s hs) (hd s hs) (hbo.lt ps hps) ha.1
      revert this
      cases pureBlock mt fin D g data s ps a <;>
        cases pureBlock mt fin1 D.one (geoAt s g) (data1 s) 0 ps a1 <;> simp only [OptRel, imp_self]
      rintro ⟨h1, h2⟩
      exact ⟨h1, fun s' hs' hne n hn => by rw [h2 s' hs' hne n hn, ha.2 s' hs' hne n hn]⟩

theorem osemFin_at (D : Dims) : FinAt (K := K) D (osemFin D) (osemFin D.one) := by
  intro s hs a a1 r r1 h1 h2 h
  obtain ⟨r', e, h3, h4⟩ := osemFin_apply D s a r
  obtain ⟨r1', e1, h5, -⟩ := osemFin_apply D.one 0 a1 r1
  rw [e, e1]
  refine ⟨fun n hn => ?_, fun s' _ hne n hn => h4 _ (other_slice hn hne)⟩
  have := h5 n hn
  rw [Nat.zero_mul, Nat.add_zero] at this
  rw [this, h3 n hn, h1, h2, h n hn]

theorem bartFin_at (D : Dims) : FinAt (K := K) D (bartFin D) (bartFin D.one) := by
  intro s hs a a1 r r1 h1 h2 h
  obtain ⟨r', e, h3, h4⟩ := bartFin_apply D s a r
  obtain ⟨r1', e1, h5, -⟩ := bartFin_apply D.one 0 a1 r1
  rw [e, e1]
  refine ⟨fun n hn => ?_, fun s' _ hne n hn => h4 _ (other_slice hn hne)⟩
  have := h5 n hn
  rw [Nat.zero_mul, Nat.add_zero] at this
  rw [this, h3 n hn, h1, h2, h n hn]

/-- **C170**: `osem`. -/
theorem osem_alone {D : Dims} {g : Geom K} (hg : GeomOk D g) {data : Mem K}
    {data1 : Nat → Mem K} (hd : DatAll D data data1) (num_iter : Nat) {nb : Nat}
    {ind : List Nat} (hb : BlockArgs D.dt nb ind) {recon : Mem K} {recon1 : Nat → Mem K}
    (hr : SameAll D recon recon1) :
    Alone D (osem D g data num_iter nb ind recon) fun s =>
      osem D.one (geoAt s g) (data1 s) num_iter nb ind (recon1 s) :=
  osRun_alone (osemFin_ok D) (osemFin_ok D.one) (osemFin_at D)
    (fun s hs p hp d hd e he => (hg s hs p hp d hd e he).1) hd num_iter hb hr

/-- **C170**: `bart`. -/
theorem bart_alone {D : Dims} {g : Geom K} (hg : GeomOk D g) {data : Mem K}
    {data1 : Nat → Mem K} (hd : DatAll D data data1) (num_iter : Nat) {nb : Nat}
    {ind : List Nat} (hb : BlockArgs D.dt nb ind) {recon : Mem K} {recon1 : Nat → Mem K}
    (hr : SameAll D recon recon1) :
    Alone D (bart D g data num_iter nb ind recon) fun s =>
      bart D.one (geoAt s g) (data1 s) num_iter nb ind (recon1 s) :=
  osRun_alone (bartFin_ok D) (bartFin_ok D.one) (bartFin_at D)
    (fun s hs p hp d hd e he => (hg s hs p hp d hd e he).1) hd num_iter hb hr

/-- **C170**: `mlem`. -/
theorem mlem_alone {D : Dims} {g : Geom K} (hg : GeomOk D g) {data : Mem K}
    {data1 : Nat → Mem K} (hd : DatAll D data data1) (num_iter : Nat) {recon : Mem K}
    {recon1 : Nat → Mem K} (hr : SameAll D recon recon1) :
    Alone D (mlem D g data num_iter recon) fun s =>
      mlem D.one (geoAt s g) (data1 s) num_iter (recon1 s) :=
  osem_alone hg hd num_iter (Or.inl rfl) hr

/-- **C170**: `sirt`. -/
theorem sirt_alone {D : Dims} {g : Geom K} (hg : GeomOk D g) {data : Mem K}
    {data1 : Nat → Mem K} (hd : DatAll D data data1) (num_iter : Nat) {recon : Mem K}
    {recon1 : Nat → Mem K} (hr : SameAll D recon recon1) :
    Alone D (sirt D g data num_iter recon) fun s =>
      sirt D.one (geoAt s g) (data1 s) num_iter (recon1 s) :=
  bart_alone hg hd num_iter (Or.inl rfl) hr

/-! ## `art` and `fbp` -/

theorem geomOk_one {D : Dims} {g : Geom K} (hg : GeomOk D g) {s : Nat} (hs : s < D.dy) :
    GeomOk D.one (geoAt s g) := fun _ _ p hp d hd e he => hg s hs p hp d hd e he

theorem kacz_at {D : Dims} {g : Geom K} {data data1 : Mem K}
    (hg : ∀ p < D.dt, ∀ d < D.dx, ∀ e ∈ g 0 p d, e.1 < D.N) {s : Nat} (hdat : DatAt D s data data1) :
    ∀ (l : List (Nat × Nat)), (∀ q ∈ l, q.1 < D.dt ∧ q.2 < D.dx) → s < D.dy → ∀ (r r1 : Mem K),
      SameAt D s r r1 →
      SameAt D s (((l.flatMap fun q => (List.range D.dy).map fun s => (q.1, q.2, s))).foldl
          (kacz D g data) r)
        ((l.map fun q => (q.1, q.2, 0)).foldl (kacz D.one (geoAt 0 g) data1) r1) := by
  intro l
  induction l with
  | nil => intro _ _ r r1 h; exact h
  | cons q l ih =>
    intro hl hs r r1 h
    rw [List.flatMap_cons, List.foldl_append, List.map_cons, List.foldl_cons]
    refine ih (fun q hq => hl q (List.mem_cons_of_mem _ hq)) hs _ _ ?_
    obtain ⟨hp, hd⟩ := hl q (by simp)
    have hok := hg q.1 hp q.2 hd
    have other : ∀ (l : List Nat) (r : Mem K), s ∉ l → ∀ n < D.N,
        (l.map fun s => (q.1, q.2, s)).foldl (kacz D g data) r (n + s * D.N) = r (n + s * D.N) := by
      intro l
      induction l with
      | nil => intro r _ n _; rfl
      | cons a l ih =>
        intro r ha n hn
        rw [List.map_cons, List.foldl_cons, ih _ (fun h => ha (List.mem_cons_of_mem _ h)) n hn,
          kacz_pixel (t := (q.1, q.2, a)) hok hn, if_neg (fun h => ha (by simp [h.1])), add_zero]
    obtain ⟨l1, l2, hl12⟩ := List.append_of_mem (List.mem_range.mpr hs)
    have hnd : (List.range D.dy).Nodup := List.nodup_range
    rw [hl12] at hnd ⊢
    have hs1 : s ∉ l1 := fun h => (List.nodup_append.mp hnd).2.2 s h s (by simp) rfl
    have hs2 : s ∉ l2 := (List.nodup_cons.mp (List.nodup_append.mp hnd).2.1).1
    intro n hn
    have h1 : SameAt D s ((l1.map fun s => (q.1, q.2, s)).foldl (kacz D g data) r) r1 := fun n hn => by
      rw [h n hn, other l1 r hs1 n hn]
    rw [List.map_append, List.map_cons, List.foldl_append, List.foldl_cons, other l2 _ hs2 n hn,
      kacz_pixel (t := (q.1, q.2, s)) hok hn]
    have k := kacz_pixel (D := D.one) (g := geoAt 0 g) (data := data1) (r := r1)
      (t := (q.1, q.2, 0)) (s := 0) (n := n) hok hn
    rw [Nat.zero_mul, Nat.add_zero] at k
    rw [k, h1 n hn]
    simp only [true_and, datAt_data hdat hp hd]
    rw [show lineSum D.one.N 0 (geoAt 0 g 0 q.1 q.2) r1 = lineSum D.N s (g 0 q.1 q.2) _ from
      lineSum_at hok h1]
    rfl

/-- **C170**: `art` (with the rays of the first centre for every slice). -/
theorem art_alone {D : Dims} {g : Geom K} (hg : ∀ p < D.dt, ∀ d < D.dx, ∀ e ∈ g 0 p d, e.1 < D.N)
    {s : Nat} (hs : s < D.dy) {data data1 : Mem K} (hdat : DatAt D s data data1) (num_iter : Nat)
    {recon recon1 : Mem K} (hr : SameAt D s recon recon1) :
    SameAt D s (art D g data num_iter recon)
      (art D.one (geoAt 0 g) data1 num_iter recon1) := by
  unfold art
  by_cases h0 : D.dy = 0 ∨ D.dt = 0 ∨ D.dx = 0
  · rw [if_pos h0, if_pos (show D.one.dy = 0 ∨ D.one.dt = 0 ∨ D.one.dx = 0 from Or.inr (by
      rcases h0 with h | h
      · omega
      · exact h))]
    exact hr
  · rw [if_neg h0, if_neg (show ¬ (D.one.dy = 0 ∨ D.one.dt = 0 ∨ D.one.dx = 0) from by
      rintro (h | h)
      · cases h
      · exact h0 (Or.inr h))]
    have step : ∀ r r1, SameAt D s r r1 →
        SameAt D s (artIter D g data r) (artIter D.one (geoAt 0 g) data1 r1) := by
      intro r r1 h
      rw [artIter_eq, artIter_eq]
      have e1 : artOrder D = (raysOf D.dx (List.range D.dt)).flatMap fun q =>
          (List.range D.dy).map fun s => (q.1, q.2, s) := by
        unfold artOrder raysOf
        rw [List.flatMap_assoc]
        simp only [List.flatMap_map]
      have e2 : artOrder D.one = (raysOf D.dx (List.range D.dt)).map fun q => (q.1, q.2, 0) := by
        unfold artOrder raysOf
        rw [List.map_flatMap]
        simp only [Dims.one, List.map_map, Function.comp_def, List.range_one, List.map_cons, List.map_nil]
        simp only [← List.map_eq_flatMap]
      rw [e1, e2]
      refine kacz_at hg hdat _ (fun q hq => ?_) hs r r1 h
      have := mem_raysOf.mp hq
      exact ⟨List.mem_range.mp this.1, this.2⟩
    have all : ∀ k r r1, SameAt D s r r1 →
        SameAt D s ((artIter D g data)^[k] r) ((artIter D.one (geoAt 0 g) data1)^[k] r1) := by
      intro k
      induction k with
      | zero => intro r r1 h; exact h
      | succ k ih =>
        intro r r1 h
        rw [Function.iterate_succ_apply, Function.iterate_succ_apply]
        exact ih _ _ (step r r1 h)
    exact all num_iter _ _ hr

/-- **C170**: `fbp`. -/
theorem fbp_alone {D : Dims} {g : Geom K} (hg : GeomOk D g) {s : Nat} (hs : s < D.dy)
    {data data1 : Mem K} (hdat : DatAt D s data data1) {recon recon1 : Mem K} (hr : SameAt D s recon recon1) :
    SameAt D s (fbp D g data recon) (fbp D.one (geoAt s g) data1 recon1) := by
  intro n hn
  rw [fbp_apply D g data recon (fun s hs p hp d hd e he => (hg s hs p hp d hd e he).1) hs hn]
  have k := fbp_apply D.one (geoAt s g) data1 recon1
    (fun s' hs' p hp d hd e he => (geomOk_one hg hs s' hs' p hp d hd e he).1) (s := 0) (n := n) one_pos hn
  rw [Nat.zero_mul, Nat.add_zero] at k
  rw [k]
  rw [hr n hn]
  congr 1
  refine Finset.sum_congr rfl fun p hp => Finset.sum_congr rfl fun d hd => ?_
  rw [datAt_data hdat (Finset.mem_range.mp hp) (Finset.mem_range.mp hd)]
  rfl

/-! ## Gradient methods -/

theorem gradient_at {D : Dims} {g : Geom K} (hg : GeomOk D g) (r0 : K) {s : Nat}
    (hs : s < D.dy) {data data1 : Mem K} (hdat : DatAt D s data data1) {r r1 : Mem K} (h : SameAt D s r r1) :
    SameAt D s (gradient D g data r r0) (gradient D.one (geoAt s g) data1 r1 r0) := by
  intro n hn
  rw [gradient_spec hg data r r0 hs hn]
  have k := gradient_spec (geomOk_one hg hs) data1 r1 r0 (s := 0) (n := n) one_pos hn
  rw [Nat.zero_mul, Nat.add_zero] at k
  rw [k]
  unfold gradSpec
  refine Finset.sum_congr rfl fun p hp => Finset.sum_congr rfl fun d hd => ?_
  rw [datAt_data hdat (Finset.mem_range.mp hp) (Finset.mem_range.mp hd), show lineSum D.one.N 0 (geoAt s g 0 p d) r1 = lineSum D.N s (g s p d) r from
    lineSum_at (fun e he => (hg s hs p (Finset.mem_range.mp hp) d (Finset.mem_range.mp hd) e he).1) h]
  rfl

/-- States of the gradient methods. -/
structure GradRel (D : Dims) (s : Nat) (st st1 : GradSt K) : Prop where
  recon : SameAt D s st.recon st1.recon
  gr0 : SameAt D s st.gr0 st1.gr0
  recon0 : SameAt D s st.recon0 st1.recon0

theorem gradStep_at {D : Dims} {ngx ngy : Nat} (hN : D.N = ngx * ngy) (reg0 : K) (i : Nat) {s : Nat}
    {a b c d a1 b1 c1 d1 : Mem K} (ha : SameAt D s a a1) (hb : SameAt D s b b1) (hc : SameAt D s c c1)
    (hd : SameAt D s d d1) :
    gradStep ngx ngy reg0 i a1 b1 c1 d1 0 = gradStep ngx ngy reg0 i a b c d s := by
  have e1 : sumPix ngx ngy 0 (fun x => (a1 x - b1 x) * (a1 x - b1 x)) =
      sumPix ngx ngy s (fun x => (a x - b x) * (a x - b x)) := by
    rw [sumPix_eq, sumPix_eq]
    refine Finset.sum_congr rfl fun n hn => ?_
    have hn' := Finset.mem_range.mp hn
    rw [← hN] at hn' ⊢
    rw [Nat.zero_mul, Nat.add_zero, ha n hn', hb n hn']
  have e2 : sumPix ngx ngy 0 (fun x => (c1 x - d1 x) * (a1 x - b1 x)) =
      sumPix ngx ngy s (fun x => (c x - d x) * (a x - b x)) := by
    rw [sumPix_eq, sumPix_eq]
    refine Finset.sum_congr rfl fun n hn => ?_
    have hn' := Finset.mem_range.mp hn
    rw [← hN] at hn' ⊢
    rw [Nat.zero_mul, Nat.add_zero, ha n hn', hb n hn', hc n hn', hd n hn']
  unfold gradStep
  rw [e1, e2]

/-- `forPix` slice by slice. -/
theorem forPix_at {D : Dims} {ngx ngy : Nat} (hN : D.N = ngx * ngy) {s : Nat} (hs : s < D.dy)
    (f f1 : Nat → Nat → K → K) {m m1 : Mem K} (h : SameAt D s m m1)
    (hf : ∀ n < D.N, ∀ v, f1 0 n v = f s (n + s * D.N) v) :
    SameAt D s (forPix D.dy ngx ngy f m) (forPix 1 ngx ngy f1 m1) := by
  intro n hn
  have k := forPix_pixel (D := D.one) (ngx := ngx) (ngy := ngy) hN f1 m1 (s := 0) (n := n) one_pos hn
  rw [Nat.zero_mul, Nat.add_zero] at k
  rw [forPix_pixel hN f m hs hn]
  refine k.trans ?_
  rw [hf n hn, h n hn]

theorem gradRun_alone {extra : Mem K → Mem K → Mem K} {extra1 : Nat → Mem K → Mem K → Mem K} {D : Dims}
    {ngx ngy : Nat} (hN : D.N = ngx * ngy) {g : Geom K} (hg : GeomOk D g)
    (hex : ∀ s < D.dy, ∀ r r1 gr gr1, SameAt D s r r1 → SameAt D s gr gr1 →
      SameAt D s (extra r gr) (extra1 s r1 gr1)) {data : Mem K} {data1 : Nat → Mem K}
    (hd : DatAll D data data1) (num_iter : Nat) (r0 reg0 : K) {recon : Mem K} {recon1 : Nat → Mem K}
    (hr : SameAll D recon recon1) :
    Alone D (gradRun extra D ngx ngy g data num_iter r0 reg0 recon) fun s =>
      gradRun (extra1 s) D.one ngx ngy (geoAt s g) (data1 s) num_iter r0 reg0 (recon1 s) := by
  have iter : ∀ i (st : GradSt K) (sts : Nat → GradSt K), (∀ s < D.dy, GradRel D s st (sts s)) →
      (gradIter extra D ngx ngy g data r0 reg0 i st = none → ∃ s < D.dy,
        gradIter (extra1 s) D.one ngx ngy (geoAt s g) (data1 s) r0 reg0 i (sts s) = none) ∧
      ∀ st', gradIter extra D ngx ngy g data r0 reg0 i st = some st' → ∃ sts' : Nat → GradSt K,
        ∀ s < D.dy, gradIter (extra1 s) D.one ngx ngy (geoAt s g) (data1 s) r0 reg0 i (sts s) =
          some (sts' s) ∧ GradRel D s st' (sts' s) := by
    intro i st sts h
    have hgr : ∀ s < D.dy, SameAt D s (extra st.recon (gradient D g data st.recon r0))
        (extra1 s (sts s).recon (gradient D.one (geoAt s g) (data1 s) (sts s).recon r0)) := fun s hs =>
      hex s hs _ _ _ _ (h s hs).recon (gradient_at hg r0 hs (hd s hs) (h s hs).recon)
    have hst : ∀ s < D.dy, gradStep ngx ngy reg0 i
        (extra1 s (sts s).recon (gradient D.one (geoAt s g) (data1 s) (sts s).recon r0))
        (sts s).gr0 (sts s).recon (sts s).recon0 0 = gradStep ngx ngy reg0 i
        (extra st.recon (gradient D g data st.recon r0)) st.gr0 st.recon st.recon0 s := fun s hs =>
      gradStep_at hN reg0 i (hgr s hs) (h s hs).gr0 (h s hs).recon (h s hs).recon0
    simp only [gradIter]
    constructor
    · intro hn
      split at hn
      · cases hn
      · rename_i hne
        push Not at hne
        obtain ⟨s, hs, hne⟩ := hne
        refine ⟨s, hs, if_neg fun hall => hne ?_⟩
        have := hall 0 one_pos
        rw [hst s hs] at this
        exact this
    · intro st' hsome
      split at hsome
      · rename_i hall
        cases hsome
        refine ⟨fun s => ⟨forPix 1 ngx ngy (fun s' x v => v - ((gradStep ngx ngy reg0 i
          (extra1 s (sts s).recon (gradient D.one (geoAt s g) (data1 s) (sts s).recon r0))
          (sts s).gr0 (sts s).recon (sts s).recon0 s').getD 0) *
          (extra1 s (sts s).recon (gradient D.one (geoAt s g) (data1 s) (sts s).recon r0)) x)
            (sts s).recon,
          extra1 s (sts s).recon (gradient D.one (geoAt s g) (data1 s) (sts s).recon r0),
          (sts s).recon⟩, fun s hs => ⟨if_pos ?_, ?_, hgr s hs, (h s hs).recon⟩⟩
        · intro s' hs'
          have : s' = 0 := Nat.lt_one_iff.mp hs'
          subst this
          rw [hst s hs]
          exact hall s hs
        · dsimp only
          refine forPix_at hN hs _ _ (h s hs).recon fun n hn v => ?_
          simp only [hst s hs, hgr s hs n hn]
      · cases hsome
  have iters : ∀ k i (st : GradSt K) (sts : Nat → GradSt K), (∀ s < D.dy, GradRel D s st (sts s)) →
      (gradIters extra D ngx ngy g data r0 reg0 k i st = none → ∃ s < D.dy,
        gradIters (extra1 s) D.one ngx ngy (geoAt s g) (data1 s) r0 reg0 k i (sts s) = none) ∧
      ∀ st', gradIters extra D ngx ngy g data r0 reg0 k i st = some st' → ∃ sts' : Nat → GradSt K,
        ∀ s < D.dy, gradIters (extra1 s) D.one ngx ngy (geoAt s g) (data1 s) r0 reg0 k i (sts s) =
          some (sts' s) ∧ GradRel D s st' (sts' s) := by
    intro k
    induction k with
    | zero =>
      intro i st sts h
      refine ⟨fun h => (by cases h), fun st' h' => ?_⟩
      cases h'
      exact ⟨sts, fun s hs => ⟨rfl, h s hs⟩⟩
    | succ k ih =>
      intro i st sts h
      obtain ⟨h1, h2⟩ := iter i st sts h
      simp only [gradIters]
      cases e : gradIter extra D ngx ngy g data r0 reg0 i st with
      | none =>
        refine ⟨fun _ => ?_, fun r' h' => by cases h'⟩
        obtain ⟨s, hs, h3⟩ := h1 e
        exact ⟨s, hs, by rw [h3]; rfl⟩
      | some st2 =>
        obtain ⟨sts2, h3⟩ := h2 st2 e
        obtain ⟨h5, h6⟩ := ih (i + 1) st2 sts2 fun s hs => (h3 s hs).2
        refine ⟨fun h' => ?_, fun r' h' => ?_⟩
        · obtain ⟨s, hs, h7⟩ := h5 h'
          exact ⟨s, hs, by rw [(h3 s hs).1]; exact h7⟩
        · obtain ⟨rs', h7⟩ := h6 r' h'
          exact ⟨rs', fun s hs => ⟨by rw [(h3 s hs).1]; exact (h7 s hs).1, (h7 s hs).2⟩⟩
  unfold gradRun
  by_cases h0 : D.dy = 0 ∨ D.dt = 0 ∨ D.dx = 0
  · rw [if_pos h0]
    refine alone_of ⟨fun h => (by cases h), fun r' h => ?_⟩
    cases h
    rcases h0 with h0 | h0
    · exact ⟨recon1, fun s hs => absurd hs (by omega), hr⟩
    · exact ⟨recon1, fun s hs =>
        if_pos (show D.one.dy = 0 ∨ D.one.dt = 0 ∨ D.one.dx = 0 from Or.inr h0), hr⟩
  · have h01 : ¬ (D.one.dy = 0 ∨ D.one.dt = 0 ∨ D.one.dx = 0) := by
      rintro (h | h)
      · cases h
      · exact h0 (Or.inr h)
    rw [if_neg h0]
    simp only [if_neg h01]
    have hi : ∀ s < D.dy, SameAt D s (forPix D.dy ngx ngy (fun _ _ v => v / r0) recon)
        (forPix 1 ngx ngy (fun _ _ v => v / r0) (recon1 s)) := fun s hs =>
      forPix_at hN hs _ _ (hr s hs) fun _ _ _ => rfl
    obtain ⟨h1, h2⟩ := iters num_iter 0
      ⟨forPix D.dy ngx ngy (fun _ _ v => v / r0) recon, zeros,
        forPix D.dy ngx ngy (fun _ _ v => v / r0) recon⟩
      (fun s => ⟨forPix 1 ngx ngy (fun _ _ v => v / r0) (recon1 s), zeros,
        forPix 1 ngx ngy (fun _ _ v => v / r0) (recon1 s)⟩)
      fun s hs => ⟨hi s hs, fun _ _ => rfl, hi s hs⟩
    refine alone_of ⟨fun hn => ?_, fun r' hr' => ?_⟩
    · obtain ⟨s, hs, e⟩ := h1 (by simpa using hn)
      exact ⟨s, hs, by rw [Option.map_eq_none_iff]; exact e⟩
    · obtain ⟨st', e, rfl⟩ := Option.map_eq_some_iff.mp hr'
      obtain ⟨sts', h3⟩ := h2 st' e
      refine ⟨fun s => forPix 1 ngx ngy (fun _ _ v => v * r0) (sts' s).recon, fun s hs => ?_, fun s hs => ?_⟩
      · rw [Option.map_eq_some_iff]
        exact ⟨sts' s, (h3 s hs).1, rfl⟩
      · exact forPix_at hN hs _ _ (h3 s hs).2.recon fun _ _ _ => rfl

/-- **C170**: `grad`. -/
theorem grad_alone {D : Dims} {ngx ngy : Nat} (hN : D.N = ngx * ngy) {g : Geom K} (hg : GeomOk D g)
    {data : Mem K} {data1 : Nat → Mem K} (hd : DatAll D data data1) (num_iter : Nat) (r0 reg0 : K)
    {recon : Mem K} {recon1 : Nat → Mem K} (hr : SameAll D recon recon1) :
    Alone D (grad D ngx ngy g data num_iter r0 reg0 recon) fun s =>
      grad D.one ngx ngy (geoAt s g) (data1 s) num_iter r0 reg0 (recon1 s) :=
  gradRun_alone hN hg (extra1 := fun _ _ gr => gr) (fun _ _ _ _ _ _ _ h => h) hd num_iter r0 reg0 hr

/-- **C170**: `tikh`; slice `s` uses slice `s` of `reg_data`. -/
theorem tikh_alone {D : Dims} {ngx ngy : Nat} (hN : D.N = ngx * ngy) {g : Geom K} (hg : GeomOk D g)
    {data : Mem K} {data1 : Nat → Mem K} (hd : DatAll D data data1) (num_iter : Nat) (r0 reg0 reg1 : K)
    {regData : Mem K} {regData1 : Nat → Mem K} (hrd : SameAll D regData regData1)
    {recon : Mem K} {recon1 : Nat → Mem K} (hr : SameAll D recon recon1) :
    Alone D (tikh D ngx ngy g data num_iter r0 reg0 reg1 regData recon) fun s =>
      tikh D.one ngx ngy (geoAt s g) (data1 s) num_iter r0 reg0 reg1 (regData1 s)
        (recon1 s) :=
  gradRun_alone hN hg (extra1 := fun s rc gr => forPix 1 ngx ngy
      (fun _ x v => v + 2 * reg1 * (rc x - regData1 s x)) gr)
    (fun s hs r r1 gr gr1 h1 h2 => forPix_at hN hs _ _ h2 fun n hn v => by
      rw [h1 n hn, hrd s hs n hn]) hd num_iter r0 reg0 hr

/-! ## Cases -/

/-- Every array has slices, so the assumptions on data and images can always be met. -/
theorem datAll_slices (D : Dims) (m : Mem K) :
    DatAll D m (fun s n => m (n + s * (D.dt * D.dx))) ∧ SameAll D m (fun s n => m (n + s * D.N)) :=
  ⟨fun _ _ _ _ => rfl, fun _ _ _ _ => rfl⟩

/-- Two slices of one pixel with different rays and data: `mlem` gives 5 and 3/2 in one call, and the calls on
the single slices give the same. -/
example :
    (mlem ⟨2, 1, 1, 1⟩ (fun s _ _ => [(0, (s : ℚ) + 1)]) (fun n => if n = 0 then 5 else 3) 1 fun _ => 1).map
      (fun m => (m 0, m 1)) = some (5, 3 / 2) ∧
    (mlem ⟨1, 1, 1, 1⟩ (geoAt 1 fun s _ _ => [(0, (s : ℚ) + 1)]) (fun _ => 3) 1 fun _ => 1).map (fun m => m 0) =
      some (3 / 2) := by
  constructor <;> decide +kernel

example : GeomOk ⟨2, 1, 1, 1⟩ (fun s _ _ => [(0, (s : ℚ) + 1)]) := by
  intro s _ p _ d _ e he
  rw [List.mem_singleton] at he
  subst he
  exact ⟨Nat.one_pos, by show (0 : ℚ) ≤ s + 1; positivity⟩

end Tomopy.Iter
