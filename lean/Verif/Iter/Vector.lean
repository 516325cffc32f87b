import Verif.Iter.Osem

/-!
# Vector tomography (C36, C65-C67)
-/

set_option linter.unusedSectionVars false

namespace Tomopy.Iter

open Function (update)

variable {K : Type*} [Field K] [LinearOrder K] [IsStrictOrderedRing K]

/-! ## Specifications -/

/-- The line integral of the vector field along a ray of slice `s` for the given axis. -/
def vecLine (ngx ngy axis s : Nat) (ray : Segs K) (v : K × K) (R : Nat → Mem K) : K :=
  (ray.map fun e => (R (vecComp axis).1 (vecAddr ngx ngy axis s e.1) * v.1 +
    R (vecComp axis).2 (vecAddr ngx ngy axis s e.1) * v.2) * e.2).sum

/-- The data are the line integrals of the field. -/
def VecConsistent (D : Dims) (ngx ngy axis : Nat) (t : VecSet K) (R : Nat → Mem K) : Prop :=
  ∀ s < D.dy, ∀ p < D.dt, ∀ d < D.dx, sumDist2 (t.g s p d) ≠ 0 →
    t.data (D.data s p d) = vecLine ngx ngy axis s (t.g s p d) (t.v p) R

/-- Every pixel of every slice is crossed by a ray. -/
def AllSeen (D : Dims) (g : Geom K) : Prop :=
  ∀ s < D.dy, ∀ n < D.N, ∃ p < D.dt, ∃ d < D.dx, lenIn (g s p d) n ≠ 0

/-! ## One slice -/

theorem vecSimdata_apply (D : Dims) (ngx ngy axis s p d : Nat) (ray : Segs K) (v : K × K)
    (R : Nat → Mem K) (sd : Mem K) (x : Nat) (ha : axis ≤ 2) :
    vecSimdata D ngx ngy axis s p d ray v R sd x =
      sd x + if D.data s p d = x then vecLine ngx ngy axis s ray v R else 0 := by
  unfold vecSimdata vecLine
  rw [if_pos ha, foldl_addAt ray (fun _ => D.data s p d) _ sd x, sum_ite_const]

theorem vecSimdata_other (D : Dims) (ngx ngy axis s p d : Nat) (ray : Segs K) (v : K × K)
    (R : Nat → Mem K) (sd : Mem K) (x : Nat) (hx : D.data s p d ≠ x) :
    vecSimdata D ngx ngy axis s p d ray v R sd x = sd x := by
  unfold vecSimdata
  split
  · rw [foldl_addAt ray (fun _ => D.data s p d) _ sd x, sum_ite_const, if_neg hx, add_zero]
  · rfl

theorem vecAcc_fold (D : Dims) (ngx ngy axis s : Nat) (g : Geom K) (v : Nat → K × K)
    (data : Mem K) (R : Nat → Mem K) (sd : Mem K) :
    vecAcc D ngx ngy axis s g v data R sd = (raysOf D.dx (List.range D.dt)).foldl (fun a q =>
      vecRay D ngx ngy axis s q.1 q.2 (g s q.1 q.2) (v q.1) data R a) ⟨sd, zeros, zeros, zeros⟩ := by
  unfold vecAcc raysOf
  simp only [List.foldl_flatMap, List.foldl_map]

/-- `simdata` of other slices is not touched. -/
theorem vecAcc_sd (D : Dims) (ngx ngy axis s : Nat) (g : Geom K) (v : Nat → K × K)
    (data : Mem K) (R : Nat → Mem K) (sd : Mem K) {s' p d : Nat} (hs : s' ≠ s) (hp : p < D.dt)
    (hd : d < D.dx) :
    (vecAcc D ngx ngy axis s g v data R sd).sd (D.data s' p d) = sd (D.data s' p d) := by
  rw [vecAcc_fold]
  have key : ∀ (l : List (Nat × Nat)) (a : VAcc K), (∀ q ∈ l, q.1 < D.dt ∧ q.2 < D.dx) →
      (l.foldl (fun a q => vecRay D ngx ngy axis s q.1 q.2 (g s q.1 q.2) (v q.1) data R a) a).sd
        (D.data s' p d) = a.sd (D.data s' p d) := by
    intro l
    induction l with
    | nil => intro a _; rfl
    | cons q l ih =>
      intro a h
      have hq := h q List.mem_cons_self
      rw [List.foldl_cons, ih _ (fun q hq => h q (List.mem_cons_of_mem _ hq))]
      simp only [vecRay]
      rw [vecSimdata_other]
      intro e
      exact hs (data_inj hq.1 hp hq.2 hd e).1.symm
  exact key _ _ (fun q hq => ⟨List.mem_range.mp (mem_raysOf.mp hq).1, (mem_raysOf.mp hq).2⟩)

/-- `sum_dist` is the total length in each pixel. -/
theorem vecAcc_sumd (D : Dims) (ngx ngy axis s : Nat) (g : Geom K) (v : Nat → K × K)
    (data : Mem K) (R : Nat → Mem K) (sd : Mem K) (n : Nat) :
    (vecAcc D ngx ngy axis s g v data R sd).sumd n = sensitivity D g s n := by
  rw [vecAcc_fold]
  have key : ∀ (l : List (Nat × Nat)) (a : VAcc K),
      (l.foldl (fun a q => vecRay D ngx ngy axis s q.1 q.2 (g s q.1 q.2) (v q.1) data R a) a).sumd n
        = a.sumd n + (l.map fun q => lenIn (g s q.1 q.2) n).sum := by
    intro l
    induction l with
    | nil => intro a; simp
    | cons q l ih =>
      intro a
      rw [List.foldl_cons, ih]
      simp only [vecRay, List.map_cons, List.sum_cons]
      rw [foldl_addAt (g s q.1 q.2) (fun e => e.1) (fun e => e.2) a.sumd n, ← add_assoc]
      rfl
  rw [key]
  simp [zeros, sensitivity]

/-- Consistent data: both update arrays stay zero. -/
theorem vecAcc_upd {D : Dims} {ngx ngy axis s : Nat} (ha : axis ≤ 2) {t : VecSet K}
    {R : Nat → Mem K} (hs : s < D.dy) (hc : VecConsistent D ngx ngy axis t R) {sd : Mem K}
    (hsd : ∀ p < D.dt, ∀ d < D.dx, sd (D.data s p d) = 0) (n : Nat) :
    (vecAcc D ngx ngy axis s t.g t.v t.data R sd).u1 n = 0 ∧
    (vecAcc D ngx ngy axis s t.g t.v t.data R sd).u2 n = 0 := by
  rw [vecAcc_fold]
  have key : ∀ (l : List (Nat × Nat)) (a : VAcc K), l.Nodup → (∀ q ∈ l, q.1 < D.dt ∧ q.2 < D.dx) →
      (∀ q ∈ l, a.sd (D.data s q.1 q.2) = 0) →
      (l.foldl (fun a q => vecRay D ngx ngy axis s q.1 q.2 (t.g s q.1 q.2) (t.v q.1) t.data R a) a).u1 n
        = a.u1 n ∧
      (l.foldl (fun a q => vecRay D ngx ngy axis s q.1 q.2 (t.g s q.1 q.2) (t.v q.1) t.data R a) a).u2 n
        = a.u2 n := by
    intro l
    induction l with
    | nil => intro a _ _ _; exact ⟨rfl, rfl⟩
    | cons q l ih =>
      intro a hnd hb h0
      rw [List.nodup_cons] at hnd
      have hq := hb q List.mem_cons_self
      obtain ⟨h1, h2⟩ := ih (vecRay D ngx ngy axis s q.1 q.2 (t.g s q.1 q.2) (t.v q.1) t.data R a)
        hnd.2 (fun q' hq' => hb q' (List.mem_cons_of_mem _ hq')) (by
          intro q' hq'
          have hb' := hb q' (List.mem_cons_of_mem _ hq')
          simp only [vecRay]
          rw [vecSimdata_other, h0 q' (List.mem_cons_of_mem _ hq')]
          intro e
          obtain ⟨_, e1, e2⟩ := data_inj hq.1 hb'.1 hq.2 hb'.2 e
          exact hnd.1 (by
            have : q = q' := Prod.ext e1 e2
            rw [this]; exact hq'))
      rw [List.foldl_cons, h1, h2]
      simp only [vecRay]
      by_cases hz : sumDist2 (t.g s q.1 q.2) ≠ 0
      · rw [if_pos hz, if_pos hz, vecSimdata_apply _ _ _ _ _ _ _ _ _ _ _ _ ha,
          h0 q List.mem_cons_self, if_pos rfl, hc s hs q.1 hq.1 q.2 hq.2 hz]
        constructor
        · rw [foldl_addAt (t.g s q.1 q.2) (fun e => e.1)]
          simp
        · rw [foldl_addAt (t.g s q.1 q.2) (fun e => e.1)]
          simp
      · rw [if_neg hz, if_neg hz]
        exact ⟨rfl, rfl⟩
  have := key _ ⟨sd, zeros, zeros, zeros⟩ (raysOf_nodup List.nodup_range)
    (fun q hq => ⟨List.mem_range.mp (mem_raysOf.mp hq).1, (mem_raysOf.mp hq).2⟩)
    (fun q hq => hsd _ (List.mem_range.mp (mem_raysOf.mp hq).1) _ (mem_raysOf.mp hq).2)
  exact this

/-- **C65** The update arrays: every ray adds its relative residual, times the length in the pixel,
along its own direction `(v p).1, (v p).2`. -/
theorem vecAcc_value {D : Dims} {ngx ngy axis s : Nat} (ha : axis ≤ 2) {t : VecSet K}
    {R : Nat → Mem K} {sd : Mem K} (hsd : ∀ p < D.dt, ∀ d < D.dx, sd (D.data s p d) = 0) (n : Nat) :
    (vecAcc D ngx ngy axis s t.g t.v t.data R sd).u1 n =
      ((raysOf D.dx (List.range D.dt)).map fun q => if sumDist2 (t.g s q.1 q.2) = 0 then 0 else
        (t.data (D.data s q.1 q.2) - vecLine ngx ngy axis s (t.g s q.1 q.2) (t.v q.1) R)
          / sumDist2 (t.g s q.1 q.2) * lenIn (t.g s q.1 q.2) n * (t.v q.1).1).sum ∧
    (vecAcc D ngx ngy axis s t.g t.v t.data R sd).u2 n =
      ((raysOf D.dx (List.range D.dt)).map fun q => if sumDist2 (t.g s q.1 q.2) = 0 then 0 else
        (t.data (D.data s q.1 q.2) - vecLine ngx ngy axis s (t.g s q.1 q.2) (t.v q.1) R)
          / sumDist2 (t.g s q.1 q.2) * lenIn (t.g s q.1 q.2) n * (t.v q.1).2).sum := by
  have hspread : ∀ (ray : Segs K) (u w : K) (m : Mem K),
      ray.foldl (fun m e => addAt m e.1 (u * e.2 * w)) m n = m n + u * lenIn ray n * w := by
    intro ray u w m
    rw [foldl_addAt ray (fun e => e.1) (fun e => u * e.2 * w) m n]
    congr 1
    unfold lenIn
    induction ray with
    | nil => simp
    | cons e l ih =>
      simp only [List.map_cons, List.sum_cons, ih]
      split_ifs <;> ring
  rw [vecAcc_fold]
  have key : ∀ (l : List (Nat × Nat)) (a : VAcc K), l.Nodup → (∀ q ∈ l, q.1 < D.dt ∧ q.2 < D.dx) →
      (∀ q ∈ l, a.sd (D.data s q.1 q.2) = 0) →
      (l.foldl (fun a q => vecRay D ngx ngy axis s q.1 q.2 (t.g s q.1 q.2) (t.v q.1) t.data R a) a).u1 n
        = a.u1 n + (l.map fun q => if sumDist2 (t.g s q.1 q.2) = 0 then 0 else
          (t.data (D.data s q.1 q.2) - vecLine ngx ngy axis s (t.g s q.1 q.2) (t.v q.1) R)
            / sumDist2 (t.g s q.1 q.2) * lenIn (t.g s q.1 q.2) n * (t.v q.1).1).sum ∧
      (l.foldl (fun a q => vecRay D ngx ngy axis s q.1 q.2 (t.g s q.1 q.2) (t.v q.1) t.data R a) a).u2 n
        = a.u2 n + (l.map fun q => if sumDist2 (t.g s q.1 q.2) = 0 then 0 else
          (t.data (D.data s q.1 q.2) - vecLine ngx ngy axis s (t.g s q.1 q.2) (t.v q.1) R)
            / sumDist2 (t.g s q.1 q.2) * lenIn (t.g s q.1 q.2) n * (t.v q.1).2).sum := by
    intro l
    induction l with
    | nil => intro a _ _ _; simp
    | cons q l ih =>
      intro a hnd hb h0
      rw [List.nodup_cons] at hnd
      have hq := hb q List.mem_cons_self
      obtain ⟨h1, h2⟩ := ih (vecRay D ngx ngy axis s q.1 q.2 (t.g s q.1 q.2) (t.v q.1) t.data R a)
        hnd.2 (fun q' hq' => hb q' (List.mem_cons_of_mem _ hq')) (by
          intro q' hq'
          have hb' := hb q' (List.mem_cons_of_mem _ hq')
          simp only [vecRay]
          rw [vecSimdata_other, h0 q' (List.mem_cons_of_mem _ hq')]
          intro e
          obtain ⟨_, e1, e2⟩ := data_inj hq.1 hb'.1 hq.2 hb'.2 e
          exact hnd.1 (by
            have : q = q' := Prod.ext e1 e2
            rw [this]; exact hq'))
      rw [List.foldl_cons, h1, h2]
      simp only [vecRay, List.map_cons, List.sum_cons]
      by_cases hz : sumDist2 (t.g s q.1 q.2) = 0
      · simp only [hz, ne_eq, not_true_eq_false, if_false, if_true, zero_add, and_self]
      · rw [if_pos hz, if_pos hz, if_neg hz, if_neg hz, hspread, hspread,
          vecSimdata_apply _ _ _ _ _ _ _ _ _ _ _ _ ha, h0 q List.mem_cons_self, if_pos rfl, zero_add]
        exact ⟨by ring, by ring⟩
  have := key _ ⟨sd, zeros, zeros, zeros⟩ (raysOf_nodup List.nodup_range)
    (fun q hq => ⟨List.mem_range.mp (mem_raysOf.mp hq).1, (mem_raysOf.mp hq).2⟩)
    (fun q hq => hsd _ (List.mem_range.mp (mem_raysOf.mp hq).1) _ (mem_raysOf.mp hq).2)
  simpa [zeros] using this

theorem vecAdd_zero (R : Nat → Mem K) (c i : Nat) : vecAdd R c i 0 = R := by
  unfold vecAdd addAt
  rw [add_zero, Function.update_eq_self, Function.update_eq_self]

/-- A pass over consistent data changes nothing, provided every division is by a non-zero number. -/
theorem vecPass_fixed {D : Dims} {ngx ngy raxis waxis : Nat} {guard : Bool} (ha : raxis ≤ 2)
    {t : VecSet K} {R : Nat → Mem K} (hc : VecConsistent D ngx ngy raxis t R)
    (hg : guard = true ∨ ∀ s < D.dy, ∀ n < ngx * ngy, sensitivity D t.g s n ≠ 0) :
    vecPass D ngx ngy raxis waxis guard t.g t.v t.data R = some R := by
  have hslice : ∀ s < D.dy, ∀ sd : Mem K, (∀ p < D.dt, ∀ d < D.dx, sd (D.data s p d) = 0) →
      vecSlice D ngx ngy raxis waxis guard t.g t.v t.data (R, sd) s =
        some (R, (vecAcc D ngx ngy raxis s t.g t.v t.data R sd).sd) := by
    intro s hs sd hsd
    have hpix : ∀ (l : List Nat), (∀ n ∈ l, n < ngx * ngy) →
        l.foldlM (vecPixel ngx ngy waxis s guard
          (vecAcc D ngx ngy raxis s t.g t.v t.data R sd)) R = some R := by
      intro l
      induction l with
      | nil => intro _; rfl
      | cons n l ih =>
        intro h
        have e : vecPixel ngx ngy waxis s guard (vecAcc D ngx ngy raxis s t.g t.v t.data R sd) R n =
            some R := by
          unfold vecPixel
          obtain ⟨h1, h2⟩ := vecAcc_upd ha hs hc hsd n
          rw [h1, h2, zero_div, vecAdd_zero, vecAdd_zero, vecAcc_sumd]
          rcases hg with rfl | hg
          · simp
          · rw [if_neg (hg s hs n (h n List.mem_cons_self))]
        rw [List.foldlM_cons, e]
        exact ih (fun n hn => h n (List.mem_cons_of_mem _ hn))
    unfold vecSlice
    simp only
    rw [hpix _ (fun n hn => List.mem_range.mp hn)]
    rfl
  have key : ∀ m ≤ D.dy, ∃ sd : Mem K, (List.range m).foldlM
      (vecSlice D ngx ngy raxis waxis guard t.g t.v t.data) (R, zeros) = some (R, sd) ∧
      ∀ s, m ≤ s → ∀ p < D.dt, ∀ d < D.dx, sd (D.data s p d) = 0 := by
    intro m
    induction m with
    | zero => intro _; exact ⟨zeros, rfl, fun _ _ _ _ _ _ => rfl⟩
    | succ m ih =>
      intro hm
      obtain ⟨sd, h1, h2⟩ := ih (by omega)
      refine ⟨(vecAcc D ngx ngy raxis m t.g t.v t.data R sd).sd, ?_, ?_⟩
      · rw [List.range_succ, List.foldlM_append, h1]
        show (some (R, sd)).bind (fun st => [m].foldlM _ st) = _
        rw [Option.bind_some, List.foldlM_cons, hslice m (by omega) sd (h2 m (le_refl m))]
        rfl
      · intro s hs p hp d hd
        rw [vecAcc_sd _ _ _ _ _ _ _ _ _ _ (by omega) hp hd]
        exact h2 s (by omega) p hp d hd
  obtain ⟨sd, h1, _⟩ := key D.dy (le_refl _)
  unfold vecPass
  rw [h1]
  rfl

theorem iterM_fixed {α : Type*} {f : α → Option α} {x : α} (h : f x = some x) (n : Nat) :
    iterM f n x = some x := by
  induction n with
  | zero => rfl
  | succ n ih => simp only [iterM, h]; exact ih

theorem sensitivity_ne {D : Dims} {g : Geom K} (hg : GeomOk D g) {s n : Nat} (hs : s < D.dy)
    (h : ∃ p < D.dt, ∃ d < D.dx, lenIn (g s p d) n ≠ 0) : sensitivity D g s n ≠ 0 := by
  obtain ⟨p, hp, d, hd, hne⟩ := h
  have hm : (p, d) ∈ raysOf D.dx (List.range D.dt) := mem_raysOf.mpr ⟨List.mem_range.mpr hp, hd⟩
  refine ne_of_gt (list_sum_pos_of _ _ ?_ hm ?_)
  · intro q hq
    exact lenIn_nonneg (hg s hs q.1 (List.mem_range.mp (mem_raysOf.mp hq).1) q.2 (mem_raysOf.mp hq).2) n
  · exact lt_of_le_of_ne (lenIn_nonneg (hg s hs p hp d hd) n) (Ne.symm hne)

theorem sensitivity_unseen {D : Dims} {g : Geom K} {s n : Nat} (hu : Unseen D g s n) :
    sensitivity D g s n = 0 := by
  apply List.sum_eq_zero
  intro x hx
  obtain ⟨q, hq, rfl⟩ := List.mem_map.mp hx
  exact lenIn_of_unseen hu (List.mem_range.mp (mem_raysOf.mp hq).1) (mem_raysOf.mp hq).2

/-! ## C36 for the vector methods -/

/-- **C36** (`vector`, what holds): when every pixel is crossed by a ray, a field whose projection
equals the data is returned unchanged. Missing: unseen pixels (`vector_unseen_undefined`). -/
theorem vector_consistent_fixed_partial {D : Dims} {ngx ngy : Nat} (hN : D.N = ngx * ngy)
    {t : VecSet K} (hg : GeomOk D t.g) (hseen : AllSeen D t.g) {R : Nat → Mem K}
    (hc : VecConsistent D ngx ngy 0 t R) (num_iter : Nat) :
    vector D ngx ngy t.g t.v t.data num_iter R = some R := by
  apply iterM_fixed
  apply vecPass_fixed (by omega) hc
  right
  intro s hs n hn
  exact sensitivity_ne hg hs (hseen s hs n (by omega))

theorem foldlM_none {α β : Type*} {f : β → α → Option β} {l : List α} {a : α} (ha : a ∈ l)
    (h : ∀ b, f b a = none) (b : β) : l.foldlM f b = none := by
  induction l generalizing b with
  | nil => simp at ha
  | cons a' l ih =>
    rw [List.foldlM_cons]
    rcases List.mem_cons.mp ha with rfl | ha
    · rw [h]; rfl
    · cases hb : f b a' with
      | none => rfl
      | some b' => exact ih ha b'

/-- **C36** (refutation for `vector`): a pixel that no ray crosses makes every call with at least
one iteration divide `0 / 0`, whatever the data and the image. -/
theorem vector_unseen_undefined {D : Dims} {ngx ngy : Nat} {g : Geom K} {s n : Nat}
    (hs : s < D.dy) (hn : n < ngx * ngy) (hu : Unseen D g s n) (v : Nat → K × K) (data : Mem K)
    {num_iter : Nat} (hni : 0 < num_iter) (R : Nat → Mem K) :
    vector D ngx ngy g v data num_iter R = none := by
  obtain ⟨k, rfl⟩ : ∃ k, num_iter = k + 1 := ⟨num_iter - 1, by omega⟩
  have hp : vecPass D ngx ngy 0 0 false g v data R = none := by
    unfold vecPass
    rw [Option.map_eq_none_iff]
    refine foldlM_none (List.mem_range.mpr hs) ?_ _
    intro st
    unfold vecSlice
    rw [Option.map_eq_none_iff]
    refine foldlM_none (List.mem_range.mpr hn) ?_ _
    intro R
    unfold vecPixel
    rw [vecAcc_sumd, sensitivity_unseen hu]
    simp
  unfold vector
  simp only [iterM, hp]
  rfl

/-- **C36** (`vector2`): consistent with both data sets *in the geometry of the first one*, the
field is unchanged; no condition on unseen pixels. -/
theorem vector2_consistent_fixed {D : Dims} {ngx ngy : Nat} {t1 t2 : VecSet K} {R : Nat → Mem K}
    {axis1 axis2 : Nat} (h1 : axis1 ≤ 2) (h2 : axis2 ≤ 2)
    (hc1 : VecConsistent D ngx ngy axis1 t1 R)
    (hc2 : VecConsistent D ngx ngy axis2 ⟨t1.g, t1.v, t2.data⟩ R) (num_iter : Nat) :
    vector2 D ngx ngy t1 t2 num_iter axis1 axis2 R = some R := by
  have e1 := vecPass_fixed (waxis := 1) (guard := true) h1 hc1 (Or.inl rfl)
  have e2 := vecPass_fixed (waxis := 2) (guard := true) h2 hc2 (Or.inl rfl)
  unfold vector2
  refine iterM_fixed ?_ num_iter
  simp only at e2 ⊢
  rw [e1, Option.bind_some, e2]

/-- **C36** (`vector3`). -/
theorem vector3_consistent_fixed {D : Dims} {ngx ngy : Nat} {t1 t2 t3 : VecSet K}
    {R : Nat → Mem K} {axis1 axis2 axis3 : Nat} (h1 : axis1 ≤ 2) (h2 : axis2 ≤ 2) (h3 : axis3 ≤ 2)
    (hc1 : VecConsistent D ngx ngy axis1 t1 R)
    (hc2 : VecConsistent D ngx ngy axis2 ⟨t1.g, t1.v, t2.data⟩ R)
    (hc3 : VecConsistent D ngx ngy axis3 ⟨t1.g, t1.v, t3.data⟩ R) (num_iter : Nat) :
    vector3 D ngx ngy t1 t2 t3 num_iter axis1 axis2 axis3 R = some R := by
  have e1 := vecPass_fixed (waxis := 0) (guard := true) h1 hc1 (Or.inl rfl)
  have e2 := vecPass_fixed (waxis := 1) (guard := true) h2 hc2 (Or.inl rfl)
  have e3 := vecPass_fixed (waxis := 2) (guard := true) h3 hc3 (Or.inl rfl)
  unfold vector3
  refine iterM_fixed ?_ num_iter
  simp only at e2 e3 ⊢
  rw [e1, Option.bind_some, e2, Option.bind_some, e3]

/-! ## C65: own geometry of each data set -/

/-- **C65** (refutation): angles and centres of the second data set have no influence at all. -/
theorem vector2_ignores_second_geometry (D : Dims) (ngx ngy : Nat) (t1 : VecSet K)
    (g g' : Geom K) (v v' : Nat → K × K) (data2 : Mem K) (num_iter axis1 axis2 : Nat)
    (R : Nat → Mem K) :
    vector2 D ngx ngy t1 ⟨g, v, data2⟩ num_iter axis1 axis2 R =
      vector2 D ngx ngy t1 ⟨g', v', data2⟩ num_iter axis1 axis2 R := rfl

/-- **C65** (refutation for `vector3`). -/
theorem vector3_ignores_other_geometry (D : Dims) (ngx ngy : Nat) (t1 : VecSet K)
    (g2 g2' g3 g3' : Geom K) (v2 v2' v3 v3' : Nat → K × K) (data2 data3 : Mem K)
    (num_iter axis1 axis2 axis3 : Nat) (R : Nat → Mem K) :
    vector3 D ngx ngy t1 ⟨g2, v2, data2⟩ ⟨g3, v3, data3⟩ num_iter axis1 axis2 axis3 R =
      vector3 D ngx ngy t1 ⟨g2', v2', data2⟩ ⟨g3', v3', data3⟩ num_iter axis1 axis2 axis3 R := rfl

/-- **C65** (what holds): with the same angles and centres for both sets a consistent field is
unchanged. Missing: different angles (`vector2_own_angles_changed`). -/
theorem vector2_same_geometry_partial {D : Dims} {ngx ngy : Nat} {t1 t2 : VecSet K}
    {R : Nat → Mem K} (hg : t2.g = t1.g) (hv : t2.v = t1.v)
    (hc1 : VecConsistent D ngx ngy 1 t1 R) (hc2 : VecConsistent D ngx ngy 2 t2 R)
    (num_iter : Nat) : vector2 D ngx ngy t1 t2 num_iter 1 2 R = some R := by
  apply vector2_consistent_fixed (by omega) (by omega) hc1
  rw [← hg, ← hv]
  exact hc2

/-! ## C66: axes -/

/-- **C66** (what holds): a pass modifies only the two components of its hard-wired axis. Missing:
that this is the axis given by the caller (`vector2_axis_ignored`). -/
theorem vecPass_components_partial {D : Dims} {ngx ngy raxis waxis : Nat} {guard : Bool}
    {g : Geom K} {v : Nat → K × K} {data : Mem K} {R R' : Nat → Mem K}
    (h : vecPass D ngx ngy raxis waxis guard g v data R = some R') {c : Nat}
    (h1 : c ≠ (vecComp waxis).1) (h2 : c ≠ (vecComp waxis).2) : R' c = R c := by
  have hpix : ∀ s a (l : List Nat) (Q Q' : Nat → Mem K),
      l.foldlM (vecPixel ngx ngy waxis s guard a) Q = some Q' → Q' c = Q c := by
    intro s a l
    induction l with
    | nil => intro Q Q' e; cases e; rfl
    | cons n l ih =>
      intro Q Q' e
      rw [List.foldlM_cons] at e
      cases hv : vecPixel ngx ngy waxis s guard a Q n with
      | none => rw [hv] at e; cases e
      | some Q1 =>
        rw [hv] at e
        rw [ih Q1 Q' e]
        unfold vecPixel at hv
        split at hv
        · split at hv
          · cases hv; rfl
          · cases hv
        · cases hv
          unfold vecAdd
          rw [Function.update_of_ne h2, Function.update_of_ne h1]
  have hsl : ∀ (l : List Nat) (st st' : (Nat → Mem K) × Mem K),
      l.foldlM (vecSlice D ngx ngy raxis waxis guard g v data) st = some st' → st'.1 c = st.1 c := by
    intro l
    induction l with
    | nil => intro st st' e; cases e; rfl
    | cons s l ih =>
      intro st st' e
      rw [List.foldlM_cons] at e
      cases hv : vecSlice D ngx ngy raxis waxis guard g v data st s with
      | none => rw [hv] at e; cases e
      | some st1 =>
        rw [hv] at e
        rw [ih st1 st' e]
        unfold vecSlice at hv
        rw [Option.map_eq_some_iff] at hv
        obtain ⟨Q, hQ, rfl⟩ := hv
        exact hpix _ _ _ _ _ hQ
  unfold vecPass at h
  rw [Option.map_eq_some_iff] at h
  obtain ⟨st, hst, rfl⟩ := h
  exact hsl _ _ _ hst

/-! ## C67: addresses -/

/-- Specification: the place of voxel `(z, x, y)` in a C array of shape `(·, ngx, ngy)`. -/
def voxel (ngx ngy z x y : Nat) : Nat := (z * ngx + x) * ngy + y

/-- **C67** The voxel that pixel `(m, k)` of slice `s` stands for: `(s, m, k)` along axis 0,
`(k, m, s)` along axis 1, `(k, s, m)` along axis 2, for every grid. -/
theorem vecAddr_voxel {ngx ngy s m k : Nat} (hk : k < ngy) :
    vecAddr ngx ngy 0 s (k + m * ngy) = voxel ngx ngy s m k ∧
    vecAddr ngx ngy 1 s (k + m * ngy) = voxel ngx ngy k m s ∧
    vecAddr ngx ngy 2 s (k + m * ngy) = voxel ngx ngy k s m := by
  have h1 : (k + m * ngy) / ngy = m := by
    rw [Nat.add_mul_div_right _ _ (by omega), Nat.div_eq_of_lt hk, Nat.zero_add]
  have h2 : (k + m * ngy) % ngy = k := by
    rw [Nat.add_mul_mod_self_right, Nat.mod_eq_of_lt hk]
  refine ⟨?_, ?_, ?_⟩
  · simp only [vecAddr, voxel, if_true]; ring
  · simp only [vecAddr, voxel, h1, h2]
    rw [if_neg (by decide), if_pos trivial]; ring
  · simp only [vecAddr, voxel, h1, h2]
    rw [if_neg (by decide), if_neg (by decide)]; ring

/-- **C67** (what holds): for a cube all addresses are inside the volumes. -/
theorem vecAddr_cube_partial {n axis s q : Nat} (hs : s < n) (hq : q < n * n) :
    vecAddr n n axis s q < n * (n * n) := by
  have h1 : q / n < n := Nat.div_lt_of_lt_mul hq
  have h2 : q % n < n := Nat.mod_lt _ (by omega)
  have key : ∀ a b c : Nat, a < n → b < n → c < n → a + b * n + c * n * n < n * (n * n) := by
    intro a b c ha hb hc
    have e1 : a + b * n < n * n := by
      calc a + b * n < n + b * n := by omega
        _ = (b + 1) * n := by ring
        _ ≤ n * n := Nat.mul_le_mul_right _ hb
    calc a + b * n + c * n * n < n * n + c * n * n := by omega
      _ = (c + 1) * (n * n) := by ring
      _ ≤ n * (n * n) := Nat.mul_le_mul_right _ hc
  unfold vecAddr
  split
  · have := key (q % n) (q / n) s h2 h1 hs
    rw [Nat.mod_add_div' q n] at this
    exact this
  · split
    · exact key s (q / n) (q % n) hs h1 h2
    · exact key (q / n) s (q % n) h1 hs h2

/-- **C67**: in a cube different (slice, pixel) pairs have different addresses, so a pass writes
every voxel of its two components at most once. -/
theorem vecAddr_inj {n axis s s' q q' : Nat} (hs : s < n) (hs' : s' < n) (hq : q < n * n)
    (hq' : q' < n * n) (h : vecAddr n n axis s q = vecAddr n n axis s' q') : s = s' ∧ q = q' := by
  have h1 : q / n < n := Nat.div_lt_of_lt_mul hq
  have h2 : q % n < n := Nat.mod_lt _ (by omega)
  have h1' : q' / n < n := Nat.div_lt_of_lt_mul hq'
  have h2' : q' % n < n := Nat.mod_lt _ (by omega)
  have key : ∀ a b c a' b' c' : Nat, a < n → b < n → a' < n → b' < n →
      a + b * n + c * n * n = a' + b' * n + c' * n * n → a = a' ∧ b = b' ∧ c = c' := by
    intro a b c a' b' c' ha hb ha' hb' e
    have e' : a + (b + c * n) * n = a' + (b' + c' * n) * n := by
      calc a + (b + c * n) * n = a + b * n + c * n * n := by ring
        _ = _ := e
        _ = _ := by ring
    obtain ⟨e1, e2⟩ := pix_inj ha ha' e'
    obtain ⟨e3, e4⟩ := pix_inj hb hb' e1
    exact ⟨e2, e4, e3⟩
  have hqq : ∀ {a b : Nat}, a / n = b / n → a % n = b % n → a = b := by
    intro a b e1 e2
    rw [← Nat.mod_add_div' a n, ← Nat.mod_add_div' b n, e1, e2]
  unfold vecAddr at h
  split at h
  · have e : q % n + q / n * n + s * n * n = q' % n + q' / n * n + s' * n * n := by
      rw [Nat.mod_add_div', Nat.mod_add_div']; exact h
    obtain ⟨e1, e2, e3⟩ := key _ _ _ _ _ _ h2 h1 h2' h1' e
    exact ⟨e3, hqq e2 e1⟩
  · split at h
    · obtain ⟨e1, e2, e3⟩ := key _ _ _ _ _ _ hs h1 hs' h1' h
      exact ⟨e1, hqq e2 e3⟩
    · obtain ⟨e1, e2, e3⟩ := key _ _ _ _ _ _ h1 hs h1' hs' h
      exact ⟨e2, hqq e1 e3⟩

/-- **C67** (refutation): with fewer slices than detector pixels (`dy < n`), axes 1 and 2 address
memory outside the volumes of `dy * n * n` elements. -/
theorem vecAddr_out_of_bounds {dy n : Nat} (hdy : 0 < dy) (hlt : dy < n) :
    ∃ s < dy, ∃ q < n * n, dy * (n * n) ≤ vecAddr n n 1 s q ∧ dy * (n * n) ≤ vecAddr n n 2 s q := by
  refine ⟨0, hdy, n - 1, ?_, ?_, ?_⟩
  · have : n * 1 ≤ n * n := Nat.mul_le_mul_left n (by omega)
    omega
  all_goals
    have h1 : (n - 1) / n = 0 := Nat.div_eq_of_lt (by omega)
    have h2 : (n - 1) % n = n - 1 := Nat.mod_eq_of_lt (by omega)
    simp only [vecAddr, h1, h2]
    have h3 : dy * (n * n) ≤ (n - 1) * (n * n) := Nat.mul_le_mul_right _ (by omega)
    have h4 : (n - 1) * (n * n) = (n - 1) * n * n := by ring
    simp
    omega

/-- **C67** (refutation): with more slices than detector pixels, axis 1 maps different voxels to
one address. -/
theorem vecAddr_alias {dy n : Nat} (hn : 2 ≤ n) (hlt : n < dy) :
    ∃ s < dy, ∃ s' < dy, ∃ q < n * n, ∃ q' < n * n, (s, q) ≠ (s', q') ∧
      vecAddr n n 1 s q = vecAddr n n 1 s' q' := by
  have hsq : n * 2 ≤ n * n := Nat.mul_le_mul_left n hn
  refine ⟨n, hlt, 0, by omega, 0, by omega, n, by omega, ?_, ?_⟩
  · intro h
    have := congrArg Prod.fst h
    simp only at this
    omega
  · have h1 : n / n = 1 := Nat.div_self (by omega)
    simp [vecAddr, h1]

/-! ## Directions -/

/-- The directions are unit vectors along the ray. -/
theorem vecDir_unit {ngx ngy : Nat} (h : 0 < ngx + ngy) (yi θ : ℝ) :
    vecDir ngx ngy yi (Real.sin θ) (Real.cos θ) = (-Real.cos θ, -Real.sin θ) := by
  have hpos : (0 : ℝ) < (ngx : ℝ) + ngy := by exact_mod_cast h
  have hs : Real.sqrt (((-(ngx : ℝ) - ngy) * Real.cos θ - yi * Real.sin θ -
      (-(-(ngx : ℝ) - ngy) * Real.cos θ - yi * Real.sin θ)) ^ 2 +
      ((-(ngx : ℝ) - ngy) * Real.sin θ + yi * Real.cos θ -
      (-(-(ngx : ℝ) - ngy) * Real.sin θ + yi * Real.cos θ)) ^ 2) = 2 * ((ngx : ℝ) + ngy) := by
    have : ((-(ngx : ℝ) - ngy) * Real.cos θ - yi * Real.sin θ -
      (-(-(ngx : ℝ) - ngy) * Real.cos θ - yi * Real.sin θ)) ^ 2 +
      ((-(ngx : ℝ) - ngy) * Real.sin θ + yi * Real.cos θ -
      (-(-(ngx : ℝ) - ngy) * Real.sin θ + yi * Real.cos θ)) ^ 2 = (2 * ((ngx : ℝ) + ngy)) ^ 2 := by
      have hcs := Real.sin_sq_add_cos_sq θ
      calc _ = (2 * ((ngx : ℝ) + ngy)) ^ 2 * (Real.sin θ ^ 2 + Real.cos θ ^ 2) := by ring
        _ = _ := by rw [hcs, mul_one]
    rw [this]
    exact Real.sqrt_sq (by positivity)
  unfold vecDir
  simp only
  rw [hs]
  refine Prod.ext ?_ ?_
  · simp only; field_simp; ring
  · simp only; field_simp; ring

section Examples

/-- One slice, one pixel, two rays. -/
def vcD : Dims := ⟨1, 2, 1, 1⟩
def vcSet (w : Nat → ℚ × ℚ) (dat : List ℚ) : VecSet ℚ :=
  ⟨fun _ _ _ => [(0, 1)], w, fun i => dat.getD i 0⟩
def vcDir : Nat → ℚ × ℚ := fun p => if p = 0 then (1, 0) else (0, 1)
def vcDir' : Nat → ℚ × ℚ := fun p => if p = 0 then (0, 1) else (1, 0)
/-- Components 1, 2, 3. -/
def vcField : Nat → Mem ℚ := fun c _ => c + 1

example : GeomOk vcD (vcSet vcDir []).g := by unfold GeomOk SegsOk; decide +kernel
example : AllSeen vcD (vcSet vcDir []).g := by
  intro s _ n hn
  have : n = 0 := by simp [vcD] at hn; exact hn
  subst this
  exact ⟨0, by decide, 0, by decide, by simp [vcSet, lenIn]⟩
example : VecConsistent vcD 1 1 0 (vcSet vcDir [1, 2]) vcField := by
  unfold VecConsistent; decide +kernel
/-- Own consistent data for axes 1 and 2; the second set was measured in the other order. -/
example : VecConsistent vcD 1 1 1 (vcSet vcDir [2, 3]) vcField ∧
    VecConsistent vcD 1 1 2 (vcSet vcDir' [3, 1]) vcField := by
  unfold VecConsistent; decide +kernel

/-- **C65** (refutation): both data sets are consistent with the field in their own geometry (see
the example above) and yet `vector2` changes the field. -/
theorem vector2_own_angles_changed :
    (vector2 vcD 1 1 (vcSet vcDir [2, 3]) (vcSet vcDir' [3, 1]) 1 1 2 vcField).map (fun R => R 0 0)
      ≠ some (vcField 0 0) := by
  decide +kernel

/-- **C66** (refutation): with both axis arguments 0 the data see only the components 1 and 2; the
call nevertheless changes component 3 (and for the second pass component 1). -/
theorem vector2_axis_ignored :
    (vector2 vcD 1 1 (vcSet vcDir [5, 7]) (vcSet vcDir [5, 7]) 1 0 0 vcField).map (fun R => R 2 0)
      ≠ some (vcField 2 0) ∧
    ∀ R, vecLine 1 1 0 0 [(0, 1)] (vcDir 0) R = vecLine 1 1 0 0 [(0, (1 : ℚ))] (vcDir 0)
      (update R 2 (fun _ => 17)) := by
  refine ⟨by decide +kernel, fun R => ?_⟩
  simp [vecLine, vecComp, update]

example : Unseen (K := ℚ) ⟨1, 1, 1, 2⟩ (fun _ _ _ => [(0, 1)]) 0 1 := by
  unfold Unseen; decide +kernel

end Examples

end Tomopy.Iter
