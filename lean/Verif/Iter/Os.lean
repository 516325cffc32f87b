import Verif.Iter.Basic
import Verif.Iter.Subsets

/-!
# The common loop of the ordered-subset methods
-/

set_option linter.unusedSectionVars false

namespace Tomopy.Iter

open Function (update)

variable {K : Type*} [Field K] [LinearOrder K] [IsStrictOrderedRing K]

/-! ## Option folds -/

theorem foldlM_inv {α β : Type*} (f : β → α → Option β) (Inv : β → Prop) : ∀ (l : List α),
    (∀ a ∈ l, ∀ b, Inv b → ∃ b', f b a = some b' ∧ Inv b') →
    ∀ b, Inv b → ∃ b', l.foldlM f b = some b' ∧ Inv b' := by
  intro l
  induction l with
  | nil => intro _ b hb; exact ⟨b, rfl, hb⟩
  | cons a l ih =>
    intro h b hb
    obtain ⟨b1, h1, hb1⟩ := h a (by simp) b hb
    obtain ⟨b2, h2, hb2⟩ := ih (fun a ha => h a (List.mem_cons_of_mem _ ha)) b1 hb1
    refine ⟨b2, ?_, hb2⟩
    rw [List.foldlM_cons, h1]
    exact h2

theorem iterM_inv {α : Type*} (f : α → Option α) (Inv : α → Prop)
    (h : ∀ b, Inv b → ∃ b', f b = some b' ∧ Inv b') (n : Nat) :
    ∀ b, Inv b → ∃ b', iterM f n b = some b' ∧ Inv b' := by
  induction n with
  | zero => intro b hb; exact ⟨b, rfl, hb⟩
  | succ n ih =>
    intro b hb
    obtain ⟨b1, h1, hb1⟩ := h b hb
    obtain ⟨b2, h2, hb2⟩ := ih b1 hb1
    exact ⟨b2, by rw [iterM, h1]; exact h2, hb2⟩

theorem iterM_succ_last {α : Type*} (f : α → Option α) (n : Nat) :
    ∀ b, iterM f (n + 1) b = (iterM f n b).bind f := by
  induction n with
  | zero =>
    intro b
    show (f b).bind (iterM f 0) = (some b).bind f
    simp only [Option.bind_some]
    cases f b <;> rfl
  | succ n ih =>
    intro b
    show (f b).bind (iterM f (n + 1)) = ((f b).bind (iterM f n)).bind f
    cases hb : f b with
    | none => rfl
    | some c => simp only [Option.bind_some]; exact ih c

theorem foldlM_nested {α β γ : Type*} (f : β → α → γ → Option β) (qs : List γ) : ∀ (ps : List α)
    (b : β), ps.foldlM (fun b p => qs.foldlM (fun b q => f b p q) b) b =
      (ps.flatMap fun p => qs.map fun q => (p, q)).foldlM (fun b pq => f b pq.1 pq.2) b := by
  intro ps
  induction ps with
  | nil => intro b; rfl
  | cons p ps ih =>
    intro b
    rw [List.foldlM_cons, List.flatMap_cons, List.foldlM_append, List.foldlM_map]
    congr 1
    funext b
    exact ih b

/-! ## Slice updates -/

/-- A loop over the pixels of a slice that rewrites each pixel from its old value. -/
theorem foldl_pixels (f : Nat → K → K) (base : Nat) : ∀ (N : Nat) (r : Mem K) (x : Nat),
    (List.range N).foldl (fun r n => update r (n + base) (f n (r (n + base)))) r x =
      if base ≤ x ∧ x < base + N then f (x - base) (r x) else r x := by
  intro N
  induction N with
  | zero => intro r x; simp
  | succ N ih =>
    intro r x
    rw [List.range_succ, List.foldl_append, List.foldl_cons, List.foldl_nil]
    by_cases hx : x = N + base
    · subst hx
      rw [Function.update_self, ih, if_neg (by omega), if_pos (by omega)]
      simp
    · rw [Function.update_of_ne hx, ih]
      by_cases h : base ≤ x ∧ x < base + N
      · rw [if_pos h, if_pos (by omega)]
      · rw [if_neg h, if_neg (by omega)]

theorem osemFin_apply (D : Dims) (s : Nat) (a : Acc K) (r : Mem K) :
    ∃ r', osemFin D s a r = some r' ∧
      (∀ n < D.N, r' (n + s * D.N) = if a.sumd n ≠ 0 then r (n + s * D.N) * (a.upd n / a.sumd n)
        else r (n + s * D.N)) ∧
      (∀ x, ¬ (s * D.N ≤ x ∧ x < s * D.N + D.N) → r' x = r x) := by
  have e : (fun (r : Mem K) n => if a.sumd n ≠ 0 then
      update r (n + s * D.N) (r (n + s * D.N) * (a.upd n / a.sumd n)) else r) =
      fun r n => update r (n + s * D.N) ((fun n v => if a.sumd n ≠ 0 then v * (a.upd n / a.sumd n)
        else v) n (r (n + s * D.N))) := by
    funext r n
    by_cases h : a.sumd n ≠ 0
    · simp only [if_pos h]
    · simp only [if_neg h, Function.update_eq_self]
  refine ⟨_, rfl, ?_, ?_⟩
  · intro n hn
    rw [e]
    refine (foldl_pixels (fun n v => if a.sumd n ≠ 0 then v * (a.upd n / a.sumd n) else v) (s * D.N) D.N r _).trans ?_
    rw [if_pos (by omega), Nat.add_sub_cancel]
  · intro x hx
    rw [e]
    refine (foldl_pixels (fun n v => if a.sumd n ≠ 0 then v * (a.upd n / a.sumd n) else v) (s * D.N) D.N r _).trans ?_
    rw [if_neg hx]

theorem bartFin_apply (D : Dims) (s : Nat) (a : Acc K) (r : Mem K) :
    ∃ r', bartFin D s a r = some r' ∧
      (∀ n < D.N, r' (n + s * D.N) = if a.sumd n ≠ 0 then r (n + s * D.N) + a.upd n / a.sumd n
        else r (n + s * D.N)) ∧
      (∀ x, ¬ (s * D.N ≤ x ∧ x < s * D.N + D.N) → r' x = r x) := by
  have e : (fun (r : Mem K) n => if a.sumd n ≠ 0 then
      addAt r (n + s * D.N) (a.upd n / a.sumd n) else r) =
      fun r n => update r (n + s * D.N) ((fun n v => if a.sumd n ≠ 0 then v + (a.upd n / a.sumd n)
        else v) n (r (n + s * D.N))) := by
    funext r n
    by_cases h : a.sumd n ≠ 0
    · simp only [if_pos h, addAt]
    · simp only [if_neg h, Function.update_eq_self]
  refine ⟨_, rfl, ?_, ?_⟩
  · intro n hn
    rw [e]
    refine (foldl_pixels (fun n v => if a.sumd n ≠ 0 then v + a.upd n / a.sumd n else v) (s * D.N) D.N r _).trans ?_
    rw [if_pos (by omega), Nat.add_sub_cancel]
  · intro x hx
    rw [e]
    refine (foldl_pixels (fun n v => if a.sumd n ≠ 0 then v + a.upd n / a.sumd n else v) (s * D.N) D.N r _).trans ?_
    rw [if_neg hx]

/-! ## The rays of one subset -/

/-- The `(projection, detector pixel)` pairs of a subset in the order of use. -/
def raysOf (dx : Nat) (ps : List Nat) : List (Nat × Nat) :=
  ps.flatMap fun p => (List.range dx).map fun d => (p, d)

theorem mem_raysOf {dx : Nat} {ps : List Nat} {q : Nat × Nat} :
    q ∈ raysOf dx ps ↔ q.1 ∈ ps ∧ q.2 < dx := by
  unfold raysOf
  simp only [List.mem_flatMap, List.mem_map, List.mem_range]
  constructor
  · rintro ⟨p, hp, d, hd, rfl⟩
    exact ⟨hp, hd⟩
  · rintro ⟨h1, h2⟩
    exact ⟨q.1, h1, q.2, h2, rfl⟩

theorem raysOf_nodup {dx : Nat} {ps : List Nat} (h : ps.Nodup) : (raysOf dx ps).Nodup := by
  unfold raysOf
  rw [List.nodup_flatMap]
  constructor
  · intro p _
    exact List.Nodup.map (fun a b e => by simpa using e) List.nodup_range
  · refine h.imp ?_
    intro a b hab q h1 h2
    simp only [List.mem_map, List.mem_range] at h1 h2
    obtain ⟨d, _, rfl⟩ := h1
    obtain ⟨d', _, e⟩ := h2
    exact hab (by simpa using (congrArg Prod.fst e).symm)

/-- `accRay` for a pair. -/
def accPair (mt : Method K) (D : Dims) (g : Geom K) (s : Nat) (data recon : Mem K) (a : Acc K)
    (q : Nat × Nat) : Option (Acc K) := accRay mt D s q.1 q.2 (g s q.1 q.2) data recon a

theorem accBlock_eq (mt : Method K) (D : Dims) (g : Geom K) (s : Nat) (ps : List Nat)
    (data recon sd : Mem K) :
    accBlock mt D g s ps data recon sd =
      (raysOf D.dx ps).foldlM (accPair mt D g s data recon) ⟨sd, zeros, zeros⟩ := by
  unfold accBlock raysOf
  exact foldlM_nested (fun a p d => accRay mt D s p d (g s p d) data recon a) _ ps _

/-- What a ray with factor `u` adds to pixel `n`. -/
def updIn (mt : Method K) (N s : Nat) (ray : Segs K) (recon : Mem K) (u : K) (n : Nat) : K :=
  (ray.map fun e => if e.1 = n then mt.acc (recon (e.1 + s * N)) u e.2 else 0).sum

/-- The accumulators after the rays `L`, when every address of `simdata` used was zero before. -/
theorem acc_spec (mt : Method K) (D : Dims) (g : Geom K) (s : Nat) (data recon : Mem K)
    (u : Nat → Nat → K) : ∀ (L : List (Nat × Nat)) (a : Acc K), L.Nodup →
    (∀ q ∈ L, q.1 < D.dt ∧ q.2 < D.dx) → (∀ q ∈ L, a.sd (D.data s q.1 q.2) = 0) →
    (∀ q ∈ L, sumDist2 (g s q.1 q.2) ≠ 0 → mt.ratio (data (D.data s q.1 q.2))
      (lineSum D.N s (g s q.1 q.2) recon) (sumDist2 (g s q.1 q.2)) = some (u q.1 q.2)) →
    ∃ a', L.foldlM (accPair mt D g s data recon) a = some a' ∧
      (∀ n, a'.sumd n = a.sumd n + (L.map fun q => lenIn (g s q.1 q.2) n).sum) ∧
      (∀ n, a'.upd n = a.upd n + (L.map fun q => if sumDist2 (g s q.1 q.2) ≠ 0 then
        updIn mt D.N s (g s q.1 q.2) recon (u q.1 q.2) n else 0).sum) := by
  intro L
  induction L with
  | nil => intro a _ _ _ _; exact ⟨a, rfl, by simp, by simp⟩
  | cons q L ih =>
    intro a hnd hb hz hu
    rw [List.nodup_cons] at hnd
    have hsd : calcSimdata D s q.1 q.2 (g s q.1 q.2) recon a.sd (D.data s q.1 q.2) =
        lineSum D.N s (g s q.1 q.2) recon := by
      rw [calcSimdata_apply, if_pos rfl, hz q (by simp), zero_add]
    have hrest : ∀ q' ∈ L, calcSimdata D s q.1 q.2 (g s q.1 q.2) recon a.sd
        (D.data s q'.1 q'.2) = 0 := by
      intro q' hq'
      rw [calcSimdata_apply, if_neg, add_zero, hz q' (List.mem_cons_of_mem _ hq')]
      intro e
      have hq := hb q (by simp)
      have hq2 := hb q' (List.mem_cons_of_mem _ hq')
      obtain ⟨_, h1, h2⟩ := data_inj hq.1 hq2.1 hq.2 hq2.2 e
      exact hnd.1 (by rw [show q = q' from Prod.ext h1 h2]; exact hq')
    rw [List.foldlM_cons]
    by_cases h0 : sumDist2 (g s q.1 q.2) ≠ 0
    · have hu0 := hu q (by simp) h0
      have e1 : accPair mt D g s data recon a q =
          some ⟨calcSimdata D s q.1 q.2 (g s q.1 q.2) recon a.sd,
            (g s q.1 q.2).foldl (fun m e => addAt m e.1 e.2) a.sumd,
            (g s q.1 q.2).foldl (fun m e => addAt m e.1
              (mt.acc (recon (e.1 + s * D.N)) (u q.1 q.2) e.2)) a.upd⟩ := by
        unfold accPair accRay
        rw [if_pos h0, hsd, hu0]
        rfl
      rw [e1]
      obtain ⟨a', h1, h2, h3⟩ := ih hnd.2 (fun q' hq' => hb q' (List.mem_cons_of_mem _ hq'))
        (a := ⟨calcSimdata D s q.1 q.2 (g s q.1 q.2) recon a.sd,
            (g s q.1 q.2).foldl (fun m e => addAt m e.1 e.2) a.sumd,
            (g s q.1 q.2).foldl (fun m e => addAt m e.1
              (mt.acc (recon (e.1 + s * D.N)) (u q.1 q.2) e.2)) a.upd⟩) hrest
        (fun q' hq' => hu q' (List.mem_cons_of_mem _ hq'))
      simp only at h2 h3
      refine ⟨a', h1, ?_, ?_⟩
      · intro n
        rw [h2 n, List.map_cons, List.sum_cons,
          foldl_addAt (g s q.1 q.2) (fun e => e.1) (fun e => e.2), ← lenIn, add_assoc]
      · intro n
        rw [h3 n, List.map_cons, List.sum_cons, if_pos h0,
          foldl_addAt (g s q.1 q.2) (fun e => e.1)
            (fun e => mt.acc (recon (e.1 + s * D.N)) (u q.1 q.2) e.2), updIn, add_assoc]
    · have e1 : accPair mt D g s data recon a q =
          some ⟨calcSimdata D s q.1 q.2 (g s q.1 q.2) recon a.sd,
            (g s q.1 q.2).foldl (fun m e => addAt m e.1 e.2) a.sumd, a.upd⟩ := by
        unfold accPair accRay
        rw [if_neg h0]
      rw [e1]
      obtain ⟨a', h1, h2, h3⟩ := ih hnd.2 (fun q' hq' => hb q' (List.mem_cons_of_mem _ hq'))
        (a := ⟨calcSimdata D s q.1 q.2 (g s q.1 q.2) recon a.sd,
            (g s q.1 q.2).foldl (fun m e => addAt m e.1 e.2) a.sumd, a.upd⟩) hrest
        (fun q' hq' => hu q' (List.mem_cons_of_mem _ hq'))
      simp only at h2 h3
      refine ⟨a', h1, ?_, ?_⟩
      · intro n
        rw [h2 n, List.map_cons, List.sum_cons,
          foldl_addAt (g s q.1 q.2) (fun e => e.1) (fun e => e.2), ← lenIn, add_assoc]
      · intro n
        rw [h3 n, List.map_cons, List.sum_cons, if_neg h0, zero_add]

/-- Forgetting `simdata`, the rays of a subset have the same effect whatever `simdata` contains
elsewhere. -/
theorem acc_sim (mt : Method K) (D : Dims) (g : Geom K) (s : Nat) (data recon : Mem K) :
    ∀ (L : List (Nat × Nat)) (sd sd' sumd upd : Mem K), L.Nodup →
    (∀ q ∈ L, q.1 < D.dt ∧ q.2 < D.dx) → (∀ q ∈ L, sd (D.data s q.1 q.2) = 0) →
    (∀ q ∈ L, sd' (D.data s q.1 q.2) = 0) →
    (L.foldlM (accPair mt D g s data recon) ⟨sd, sumd, upd⟩).map (fun a => (a.sumd, a.upd)) =
      (L.foldlM (accPair mt D g s data recon) ⟨sd', sumd, upd⟩).map (fun a => (a.sumd, a.upd)) := by
  intro L
  induction L with
  | nil => intro sd sd' sumd upd _ _ _ _; rfl
  | cons q L ih =>
    intro sd sd' sumd upd hnd hb hz hz'
    rw [List.nodup_cons] at hnd
    have hsd : ∀ sd : Mem K, (∀ q' ∈ q :: L, sd (D.data s q'.1 q'.2) = 0) →
        calcSimdata D s q.1 q.2 (g s q.1 q.2) recon sd (D.data s q.1 q.2) =
        lineSum D.N s (g s q.1 q.2) recon := by
      intro sd hz
      rw [calcSimdata_apply, if_pos rfl, hz q (by simp), zero_add]
    have hrest : ∀ sd : Mem K, (∀ q' ∈ q :: L, sd (D.data s q'.1 q'.2) = 0) →
        ∀ q' ∈ L, calcSimdata D s q.1 q.2 (g s q.1 q.2) recon sd (D.data s q'.1 q'.2) = 0 := by
      intro sd hz q' hq'
      rw [calcSimdata_apply, if_neg, add_zero, hz q' (List.mem_cons_of_mem _ hq')]
      intro e
      have hq := hb q (by simp)
      have hq2 := hb q' (List.mem_cons_of_mem _ hq')
      obtain ⟨_, h1, h2⟩ := data_inj hq.1 hq2.1 hq.2 hq2.2 e
      exact hnd.1 (by rw [show q = q' from Prod.ext h1 h2]; exact hq')
    rw [List.foldlM_cons, List.foldlM_cons]
    by_cases h0 : sumDist2 (g s q.1 q.2) ≠ 0
    · cases hu : mt.ratio (data (D.data s q.1 q.2)) (lineSum D.N s (g s q.1 q.2) recon)
          (sumDist2 (g s q.1 q.2)) with
      | none =>
        have e1 : ∀ sd : Mem K, (∀ q' ∈ q :: L, sd (D.data s q'.1 q'.2) = 0) →
            accPair mt D g s data recon ⟨sd, sumd, upd⟩ q = none := by
          intro sd hz
          unfold accPair accRay
          rw [if_pos h0]
          simp only
          rw [hsd sd hz, hu]
          rfl
        rw [e1 sd hz, e1 sd' hz']
      | some u =>
        have e1 : ∀ sd : Mem K, (∀ q' ∈ q :: L, sd (D.data s q'.1 q'.2) = 0) →
            accPair mt D g s data recon ⟨sd, sumd, upd⟩ q =
            some ⟨calcSimdata D s q.1 q.2 (g s q.1 q.2) recon sd,
              (g s q.1 q.2).foldl (fun m e => addAt m e.1 e.2) sumd,
              (g s q.1 q.2).foldl (fun m e => addAt m e.1
                (mt.acc (recon (e.1 + s * D.N)) u e.2)) upd⟩ := by
          intro sd hz
          unfold accPair accRay
          rw [if_pos h0]
          simp only
          rw [hsd sd hz, hu]
          rfl
        rw [e1 sd hz, e1 sd' hz']
        exact ih _ _ _ _ hnd.2 (fun q' hq' => hb q' (List.mem_cons_of_mem _ hq')) (hrest sd hz)
          (hrest sd' hz')
    · have e1 : ∀ sd : Mem K,
          accPair mt D g s data recon ⟨sd, sumd, upd⟩ q =
          some ⟨calcSimdata D s q.1 q.2 (g s q.1 q.2) recon sd,
            (g s q.1 q.2).foldl (fun m e => addAt m e.1 e.2) sumd, upd⟩ := by
        intro sd
        unfold accPair accRay
        rw [if_neg h0]
      rw [e1 sd, e1 sd']
      exact ih _ _ _ _ hnd.2 (fun q' hq' => hb q' (List.mem_cons_of_mem _ hq')) (hrest sd hz)
        (hrest sd' hz')

/-- The rays of a subset change `simdata` at their own addresses only. -/
theorem acc_frame (mt : Method K) (D : Dims) (g : Geom K) (s : Nat) (data recon : Mem K) :
    ∀ (L : List (Nat × Nat)) (a a' : Acc K), L.foldlM (accPair mt D g s data recon) a = some a' →
    ∀ x, (∀ q ∈ L, D.data s q.1 q.2 ≠ x) → a'.sd x = a.sd x := by
  intro L
  induction L with
  | nil =>
    intro a a' h x _
    cases h
    rfl
  | cons q L ih =>
    intro a a' h x hx
    rw [List.foldlM_cons] at h
    cases h1 : accPair mt D g s data recon a q with
    | none => rw [h1] at h; cases h
    | some b =>
      rw [h1] at h
      have h2 := ih b a' h x (fun q' hq' => hx q' (List.mem_cons_of_mem _ hq'))
      rw [h2]
      have h3 : b.sd = calcSimdata D s q.1 q.2 (g s q.1 q.2) recon a.sd := by
        unfold accPair accRay at h1
        split at h1
        · cases hu : mt.ratio (data (D.data s q.1 q.2))
              (calcSimdata D s q.1 q.2 (g s q.1 q.2) recon a.sd (D.data s q.1 q.2))
              (sumDist2 (g s q.1 q.2)) with
          | none => rw [hu] at h1; cases h1
          | some u => rw [hu] at h1; cases h1; rfl
        · cases h1; rfl
      rw [h3, calcSimdata_apply, if_neg (hx q (by simp)), add_zero]

/-! ## One iteration without `simdata` -/

/-- One subset of one slice, as a function of the image alone. -/
def pureBlock (mt : Method K) (fin : Nat → Acc K → Mem K → Option (Mem K)) (D : Dims) (g : Geom K)
    (data : Mem K) (s : Nat) (ps : List Nat) (r : Mem K) : Option (Mem K) :=
  (accBlock mt D g s ps data r zeros).bind fun a => fin s a r

/-- The final update does not look at `simdata`. -/
def FinOk (fin : Nat → Acc K → Mem K → Option (Mem K)) : Prop :=
  ∀ s (a b : Acc K) r, a.sumd = b.sumd → a.upd = b.upd → fin s a r = fin s b r

theorem osBlock_pure {mt : Method K} {fin : Nat → Acc K → Mem K → Option (Mem K)}
    (hfin : FinOk fin) {D : Dims} {g : Geom K} {data : Mem K} {s : Nat} {ps : List Nat}
    (hnd : ps.Nodup) (hps : ∀ p ∈ ps, p < D.dt) (r sd : Mem K)
    (hz : ∀ p ∈ ps, ∀ d < D.dx, sd (D.data s p d) = 0) :
    (pureBlock mt fin D g data s ps r = none ∧ osBlock mt fin D g data s (r, sd) ps = none) ∨
    ∃ r' sd', pureBlock mt fin D g data s ps r = some r' ∧
      osBlock mt fin D g data s (r, sd) ps = some (r', sd') ∧
      ∀ x, (∀ p ∈ ps, ∀ d < D.dx, D.data s p d ≠ x) → sd' x = sd x := by
  have hsim := acc_sim mt D g s data r (raysOf D.dx ps) sd zeros zeros zeros (raysOf_nodup hnd)
    (fun q hq => ⟨hps _ (mem_raysOf.mp hq).1, (mem_raysOf.mp hq).2⟩)
    (fun q hq => hz _ (mem_raysOf.mp hq).1 _ (mem_raysOf.mp hq).2) (fun _ _ => rfl)
  rw [← accBlock_eq, ← accBlock_eq] at hsim
  unfold pureBlock osBlock
  simp only [Option.bind_eq_bind]
  cases h1 : accBlock mt D g s ps data r sd with
  | none =>
    rw [h1] at hsim
    cases h2 : accBlock mt D g s ps data r zeros with
    | none => left; exact ⟨rfl, rfl⟩
    | some a => rw [h2] at hsim; cases hsim
  | some a =>
    rw [h1] at hsim
    cases h2 : accBlock mt D g s ps data r zeros with
    | none => rw [h2] at hsim; cases hsim
    | some b =>
      rw [h2] at hsim
      simp only [Option.map_some, Option.some.injEq, Prod.mk.injEq] at hsim
      have hf := hfin s a b r hsim.1 hsim.2
      simp only [Option.bind_some]
      rw [hf]
      cases h3 : fin s b r with
      | none => left; exact ⟨rfl, rfl⟩
      | some r' =>
        right
        refine ⟨r', a.sd, rfl, rfl, ?_⟩
        intro x hx
        rw [accBlock_eq] at h1
        exact acc_frame mt D g s data r _ _ a h1 x
          (fun q hq => hx _ (mem_raysOf.mp hq).1 _ (mem_raysOf.mp hq).2)

/-- Every projection at most once. -/
structure BlocksOk (D : Dims) (blocks : List (List Nat)) : Prop where
  nodup : blocks.flatten.Nodup
  lt : ∀ ps ∈ blocks, ∀ p ∈ ps, p < D.dt

theorem blocks_pure {mt : Method K} {fin : Nat → Acc K → Mem K → Option (Mem K)}
    (hfin : FinOk fin) {D : Dims} {g : Geom K} {data : Mem K} {s : Nat} :
    ∀ (blocks : List (List Nat)), BlocksOk D blocks → ∀ (r sd : Mem K),
    (∀ ps ∈ blocks, ∀ p ∈ ps, ∀ d < D.dx, sd (D.data s p d) = 0) →
    (blocks.foldlM (fun r ps => pureBlock mt fin D g data s ps r) r = none ∧
      blocks.foldlM (osBlock mt fin D g data s) (r, sd) = none) ∨
    ∃ r' sd', blocks.foldlM (fun r ps => pureBlock mt fin D g data s ps r) r = some r' ∧
      blocks.foldlM (osBlock mt fin D g data s) (r, sd) = some (r', sd') ∧
      ∀ x, (∀ p < D.dt, ∀ d < D.dx, D.data s p d ≠ x) → sd' x = sd x := by
  intro blocks
  induction blocks with
  | nil => intro _ r sd _; right; exact ⟨r, sd, rfl, rfl, fun _ _ => rfl⟩
  | cons ps blocks ih =>
    intro hb r sd hz
    have hb' : BlocksOk D blocks := ⟨(List.nodup_append.mp hb.nodup).2.1,
      fun qs hq => hb.lt qs (List.mem_cons_of_mem _ hq)⟩
    have hdis := (List.nodup_append.mp hb.nodup).2.2
    rw [List.foldlM_cons, List.foldlM_cons]
    rcases osBlock_pure hfin (List.nodup_append.mp hb.nodup).1 (hb.lt ps (by simp)) r sd
      (hz ps (by simp)) (mt := mt) (g := g) (data := data) with ⟨h1, h2⟩ | ⟨r1, sd1, h1, h2, h3⟩
    · left
      rw [h1, h2]
      exact ⟨rfl, rfl⟩
    · rw [h1, h2]
      have hz1 : ∀ qs ∈ blocks, ∀ p ∈ qs, ∀ d < D.dx, sd1 (D.data s p d) = 0 := by
        intro qs hqs p hp d hd
        rw [h3, hz qs (List.mem_cons_of_mem _ hqs) p hp d hd]
        intro p' hp' d' hd' e
        have := data_inj (hb.lt ps (by simp) p' hp')
          (hb.lt qs (List.mem_cons_of_mem _ hqs) p hp) hd' hd e
        exact hdis p' hp' p (List.mem_flatten.mpr ⟨qs, hqs, hp⟩) this.2.1
      rcases ih hb' r1 sd1 hz1 with ⟨h4, h5⟩ | ⟨r2, sd2, h4, h5, h6⟩
      · left; exact ⟨h4, h5⟩
      · right
        refine ⟨r2, sd2, h4, h5, ?_⟩
        intro x hx
        rw [h6 x hx, h3 x (fun p hp d hd => hx p (hb.lt ps (by simp) p hp) d hd)]

/-- One iteration is the composition of the pure subset updates of all slices. -/
theorem osIter_pure {mt : Method K} {fin : Nat → Acc K → Mem K → Option (Mem K)}
    (hfin : FinOk fin) {D : Dims} {g : Geom K} {data : Mem K} {blocks : List (List Nat)}
    (hb : BlocksOk D blocks) (recon : Mem K) :
    osIter mt fin D g data blocks recon =
      (List.range D.dy).foldlM (fun r s =>
        blocks.foldlM (fun r ps => pureBlock mt fin D g data s ps r) r) recon := by
  unfold osIter
  have key : ∀ (l : List Nat), l.Nodup → ∀ (r sd : Mem K),
      (∀ s ∈ l, ∀ p < D.dt, ∀ d < D.dx, sd (D.data s p d) = 0) →
      ((l.foldlM (fun st s => blocks.foldlM (osBlock mt fin D g data s) st) (r, sd)).bind
        fun st => some st.1) = l.foldlM (fun r s =>
        blocks.foldlM (fun r ps => pureBlock mt fin D g data s ps r) r) r := by
    intro l
    induction l with
    | nil => intro _ r sd _; rfl
    | cons s l ih =>
      intro hnd r sd hz
      rw [List.nodup_cons] at hnd
      rw [List.foldlM_cons, List.foldlM_cons]
      rcases blocks_pure hfin blocks hb r sd
        (fun ps hps p hp d hd => hz s (by simp) p (hb.lt ps hps p hp) d hd)
        (mt := mt) (g := g) (data := data) (s := s) with ⟨h1, h2⟩ | ⟨r1, sd1, h1, h2, h3⟩
      · rw [h1, h2]; rfl
      · rw [h1, h2]
        refine ih hnd.2 r1 sd1 ?_
        intro s' hs' p hp d hd
        rw [h3, hz s' (List.mem_cons_of_mem _ hs') p hp d hd]
        intro p' hp' d' hd' e
        have := data_inj hp' hp hd' hd e
        exact hnd.1 (by rw [this.1]; exact hs')
  exact key _ List.nodup_range recon zeros (fun _ _ _ _ _ _ => rfl)

theorem blocksOk_perm {D : Dims} {nb : Nat} {ind : List Nat} (hnb : 1 ≤ nb)
    (hperm : ind.Perm (List.range D.dt)) : BlocksOk D (usedBlocks D.dt nb ind) := by
  obtain ⟨_, h2, _⟩ := blocks_perm hnb hperm
  refine ⟨h2.nodup_iff.mpr List.nodup_range, ?_⟩
  intro ps hps p hp
  have : p ∈ (usedBlocks D.dt nb ind).flatten := List.mem_flatten.mpr ⟨ps, hps, hp⟩
  exact List.mem_range.mp (h2.mem_iff.mp this)

theorem blocksOk_single (D : Dims) : BlocksOk D [List.range D.dt] := by
  refine ⟨by simpa using List.nodup_range, ?_⟩
  intro ps hps p hp
  rw [List.mem_singleton] at hps
  rw [hps] at hp
  exact List.mem_range.mp hp

/-- The block structures for which the methods are specified: a permutation, or a single block. -/
def BlockArgs (dt nb : Nat) (ind : List Nat) : Prop := nb = 1 ∨ (1 ≤ nb ∧ ind.Perm (List.range dt))

theorem osRun_blocks {mt : Method K} {fin : Nat → Acc K → Mem K → Option (Mem K)} {D : Dims}
    {g : Geom K} {data : Mem K} {num_iter nb : Nat} {ind : List Nat} (hb : BlockArgs D.dt nb ind)
    (recon : Mem K) :
    ∃ blocks, BlocksOk D blocks ∧ (blocks.flatten.Perm (List.range D.dt)) ∧
      osRun mt fin D g data num_iter nb ind recon =
        if D.dy = 0 ∨ D.dt = 0 ∨ D.dx = 0 then some recon
        else iterM (osIter mt fin D g data blocks) num_iter recon := by
  rcases hb with h | ⟨h1, h2⟩
  · subst h
    refine ⟨_, blocksOk_single D, by simp, ?_⟩
    unfold osRun
    rw [blocks_single]
    rfl
  · refine ⟨_, blocksOk_perm h1 h2, (blocks_perm h1 h2).2.1, ?_⟩
    unfold osRun
    rw [(blocks_perm h1 h2).1, if_neg (by omega : ¬ nb = 0)]
    rfl

/-- Invariant rule for the complete methods: if every subset update, on any slice, keeps `Inv`
and is defined, the whole run is defined and keeps `Inv`. -/
theorem osRun_inv {mt : Method K} {fin : Nat → Acc K → Mem K → Option (Mem K)} (hfin : FinOk fin)
    {D : Dims} {g : Geom K} {data : Mem K} {num_iter nb : Nat} {ind : List Nat}
    (hb : BlockArgs D.dt nb ind) (Inv : Mem K → Prop)
    (hstep : ∀ s < D.dy, ∀ ps : List Nat, ps.Nodup → (∀ p ∈ ps, p < D.dt) → ∀ r, Inv r →
      ∃ r', pureBlock mt fin D g data s ps r = some r' ∧ Inv r') (recon : Mem K) (h0 : Inv recon) :
    ∃ r', osRun mt fin D g data num_iter nb ind recon = some r' ∧ Inv r' := by
  obtain ⟨blocks, hbo, _, hrun⟩ := osRun_blocks (mt := mt) (fin := fin) (g := g) (data := data)
    (num_iter := num_iter) hb recon
  rw [hrun]
  split
  · exact ⟨recon, rfl, h0⟩
  · refine iterM_inv _ Inv ?_ _ recon h0
    intro r hr
    rw [osIter_pure hfin hbo]
    refine foldlM_inv _ Inv _ ?_ r hr
    intro s hs r hr
    refine foldlM_inv _ Inv _ ?_ r hr
    intro ps hps r hr
    exact hstep s (List.mem_range.mp hs) ps
      ((List.nodup_flatten.mp hbo.nodup).1 ps hps) (hbo.lt ps hps) r hr

/-- The explicit value of one subset update. -/
theorem pureBlock_spec {mt : Method K} {fin : Nat → Acc K → Mem K → Option (Mem K)} {D : Dims}
    {g : Geom K} {data : Mem K} {s : Nat} {ps : List Nat} (hnd : ps.Nodup)
    (hps : ∀ p ∈ ps, p < D.dt) (r : Mem K) (u : Nat → Nat → K)
    (hu : ∀ p ∈ ps, ∀ d < D.dx, sumDist2 (g s p d) ≠ 0 → mt.ratio (data (D.data s p d))
      (lineSum D.N s (g s p d) r) (sumDist2 (g s p d)) = some (u p d)) :
    ∃ a : Acc K, pureBlock mt fin D g data s ps r = fin s a r ∧
      (∀ n, a.sumd n = ((raysOf D.dx ps).map fun q => lenIn (g s q.1 q.2) n).sum) ∧
      (∀ n, a.upd n = ((raysOf D.dx ps).map fun q => if sumDist2 (g s q.1 q.2) ≠ 0 then
        updIn mt D.N s (g s q.1 q.2) r (u q.1 q.2) n else 0).sum) := by
  obtain ⟨a, h1, h2, h3⟩ := acc_spec mt D g s data r u (raysOf D.dx ps) ⟨zeros, zeros, zeros⟩
    (raysOf_nodup hnd) (fun q hq => ⟨hps _ (mem_raysOf.mp hq).1, (mem_raysOf.mp hq).2⟩)
    (fun _ _ => rfl) (fun q hq => hu _ (mem_raysOf.mp hq).1 _ (mem_raysOf.mp hq).2)
  refine ⟨a, ?_, ?_, ?_⟩
  · unfold pureBlock
    rw [accBlock_eq, h1]
    rfl
  · intro n; rw [h2 n]; simp [zeros]
  · intro n; rw [h3 n]; simp [zeros]

theorem updIn_mul (mt : Method K) (c : K → K → K) (hacc : ∀ v u e, mt.acc v u e = c v u * e)
    (N s : Nat) (ray : Segs K) (r : Mem K) (u : K) (n : Nat) :
    updIn mt N s ray r u n = c (r (n + s * N)) u * lenIn ray n := by
  unfold updIn lenIn
  rw [← List.sum_map_mul_left]
  congr 1
  apply List.map_congr_left
  intro e _
  by_cases h : e.1 = n
  · rw [if_pos h, if_pos h, hacc, h]
  · rw [if_neg h, if_neg h, mul_zero]

end Tomopy.Iter
