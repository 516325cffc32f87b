import Verif.Iter.Vector
import Verif.Iter.SirtExact

/-!
# Exactly when `vector` converges, and to what (C163)

`vector` is gradient descent on the squared residuals of the line integrals of a vector field, each
divided by the sum of squares of the lengths of its ray, in the norm that weights both components
of a pixel by the total length of all rays in it.
-/

set_option linter.unusedSectionVars false

namespace Tomopy.Iter

open Filter Topology Matrix

section Field

variable {K : Type*} [Field K] [LinearOrder K] [IsStrictOrderedRing K]

/-! ## Specifications -/

/-- The integral of the in-plane components `R 0`, `R 1` of a field along a ray with direction
`v`. -/
def fieldLine (N s : Nat) (ray : Segs K) (v : K × K) (R : Nat → Mem K) : K :=
  (ray.map fun e => (R 0 (e.1 + s * N) * v.1 + R 1 (e.1 + s * N) * v.2) * e.2).sum

/-- The sum of the squared residuals of slice `s`, each divided by the sum of squares of the lengths
of its ray. -/
def vres (D : Dims) (g : Geom K) (v : Nat → K × K) (data : Mem K) (s : Nat) (R : Nat → Mem K) : K :=
  ((raysOf D.dx (List.range D.dt)).map fun q => if sumDist2 (g s q.1 q.2) ≠ 0 then
    (fieldLine D.N s (g s q.1 q.2) (v q.1) R - data (D.data s q.1 q.2)) ^ 2 / sumDist2 (g s q.1 q.2)
    else 0).sum

/-- The squared distance of two fields on slice `s`, every pixel weighted by the total length of the
rays in it. -/
def vdist (D : Dims) (g : Geom K) (s : Nat) (R Z : Nat → Mem K) : K :=
  wdist D g s (R 0) (Z 0) + wdist D g s (R 1) (Z 1)

/-- The weighted ray sums of every field on a slice are smaller than twice its weighted norm. -/
def VecOk (D : Dims) (g : Geom K) (v : Nat → K × K) : Prop :=
  ∀ s < D.dy, ∀ R, vdist D g s R (fun _ _ => 0) ≠ 0 →
    vres D g v (fun _ => 0) s R < 2 * vdist D g s R (fun _ _ => 0)

/-! ## One pass -/

theorem vecLine_zero {D : Dims} {ngx ngy : Nat} (hN : D.N = ngx * ngy) (s : Nat) (ray : Segs K)
    (v : K × K) (R : Nat → Mem K) : vecLine ngx ngy 0 s ray v R = fieldLine D.N s ray v R := by
  unfold vecLine fieldLine
  simp only [vecAddr, vecComp, if_true, hN, Nat.mul_assoc]

theorem vecPixel_fold {D : Dims} {ngx ngy : Nat} (hN : D.N = ngx * ngy) (guard : Bool) (s : Nat)
    (a : VAcc K) (h0 : ∀ n < D.N, a.sumd n ≠ 0) (Q : Nat → Mem K) :
    ∀ m ≤ D.N, ∃ Q', (List.range m).foldlM (vecPixel ngx ngy 0 s guard a) Q = some Q' ∧
      ∀ i, Q' 0 i = Q 0 i + (if s * D.N ≤ i ∧ i < m + s * D.N then
          a.u1 (i - s * D.N) / a.sumd (i - s * D.N) else 0) ∧
        Q' 1 i = Q 1 i + (if s * D.N ≤ i ∧ i < m + s * D.N then
          a.u2 (i - s * D.N) / a.sumd (i - s * D.N) else 0) := by
  intro m
  induction m with
  | zero =>
    intro _
    refine ⟨Q, rfl, fun i => ?_⟩
    rw [if_neg (by omega), if_neg (by omega), add_zero, add_zero]
    exact ⟨rfl, rfl⟩
  | succ m ih =>
    intro hm
    obtain ⟨Q1, h1, h2⟩ := ih (by omega)
    refine ⟨vecAdd (vecAdd Q1 0 (m + s * D.N) (a.u1 m / a.sumd m)) 1 (m + s * D.N) (a.u2 m / a.sumd m),
      ?_, fun i => ?_⟩
    · rw [List.range_succ, List.foldlM_append, h1]
      show (some Q1).bind (fun st => [m].foldlM _ st) = _
      rw [Option.bind_some, List.foldlM_cons]
      unfold vecPixel
      rw [if_neg (h0 m (by omega))]
      simp only [vecAddr, vecComp, if_true, hN, Nat.mul_assoc]
      rfl
    · have e0 : vecAdd (vecAdd Q1 0 (m + s * D.N) (a.u1 m / a.sumd m)) 1 (m + s * D.N)
          (a.u2 m / a.sumd m) 0 i = Q1 0 i + if m + s * D.N = i then a.u1 m / a.sumd m else 0 := by
        unfold vecAdd
        rw [Function.update_of_ne (by decide), Function.update_self, addAt_apply]
      have e1 : vecAdd (vecAdd Q1 0 (m + s * D.N) (a.u1 m / a.sumd m)) 1 (m + s * D.N)
          (a.u2 m / a.sumd m) 1 i = Q1 1 i + if m + s * D.N = i then a.u2 m / a.sumd m else 0 := by
        unfold vecAdd
        rw [Function.update_self, Function.update_of_ne (by decide), addAt_apply]
      rw [e0, e1, (h2 i).1, (h2 i).2]
      by_cases hi : m + s * D.N = i
      · subst hi
        have c1 : ¬ (s * D.N ≤ m + s * D.N ∧ m + s * D.N < m + s * D.N) := by omega
        have c2 : s * D.N ≤ m + s * D.N ∧ m + s * D.N < m + 1 + s * D.N := by omega
        rw [if_pos rfl, if_pos rfl, if_neg c1, if_neg c1, if_pos c2, if_pos c2, Nat.add_sub_cancel,
          add_zero, add_zero]
        exact ⟨rfl, rfl⟩
      · rw [if_neg hi, if_neg hi, add_zero, add_zero]
        by_cases hb : s * D.N ≤ i ∧ i < m + s * D.N
        · rw [if_pos hb, if_pos hb, if_pos (by omega), if_pos (by omega)]
          exact ⟨rfl, rfl⟩
        · rw [if_neg hb, if_neg hb, if_neg (by omega), if_neg (by omega)]
          exact ⟨rfl, rfl⟩

theorem fieldLine_congr {N s : Nat} {ray : Segs K} (hr : ∀ e ∈ ray, e.1 < N) (v : K × K)
    {R Z : Nat → Mem K} (h : ∀ n < N, R 0 (n + s * N) = Z 0 (n + s * N) ∧
      R 1 (n + s * N) = Z 1 (n + s * N)) : fieldLine N s ray v R = fieldLine N s ray v Z := by
  unfold fieldLine
  congr 1
  apply List.map_congr_left
  intro e he
  rw [(h e.1 (hr e he)).1, (h e.1 (hr e he)).2]

/-- What one iteration of `vector` does. -/
theorem vector_pass {D : Dims} {ngx ngy : Nat} (hN : D.N = ngx * ngy) {g : Geom K}
    (hg : GeomOk D g) (hseen : ∀ s < D.dy, ∀ n < D.N, sensitivity D g s n ≠ 0) (v : Nat → K × K)
    (data : Mem K) (guard : Bool) (R : Nat → Mem K) :
    ∃ R', vecPass D ngx ngy 0 0 guard g v data R = some R' ∧ ∀ s < D.dy, ∀ n < D.N,
      R' 0 (n + s * D.N) = R 0 (n + s * D.N) + ((raysOf D.dx (List.range D.dt)).map fun q =>
        if sumDist2 (g s q.1 q.2) ≠ 0 then (data (D.data s q.1 q.2) -
          fieldLine D.N s (g s q.1 q.2) (v q.1) R) / sumDist2 (g s q.1 q.2) * lenIn (g s q.1 q.2) n *
            (v q.1).1 else 0).sum / sensitivity D g s n ∧
      R' 1 (n + s * D.N) = R 1 (n + s * D.N) + ((raysOf D.dx (List.range D.dt)).map fun q =>
        if sumDist2 (g s q.1 q.2) ≠ 0 then (data (D.data s q.1 q.2) -
          fieldLine D.N s (g s q.1 q.2) (v q.1) R) / sumDist2 (g s q.1 q.2) * lenIn (g s q.1 q.2) n *
            (v q.1).2 else 0).sum / sensitivity D g s n := by
  have key : ∀ m ≤ D.dy, ∃ (Q : Nat → Mem K) (sd : Mem K), (List.range m).foldlM
      (vecSlice D ngx ngy 0 0 guard g v data) (R, zeros) = some (Q, sd) ∧
      (∀ s, m ≤ s → ∀ p < D.dt, ∀ d < D.dx, sd (D.data s p d) = 0) ∧
      (∀ i, m * D.N ≤ i → Q 0 i = R 0 i ∧ Q 1 i = R 1 i) ∧ ∀ s < m, ∀ n < D.N,
      Q 0 (n + s * D.N) = R 0 (n + s * D.N) + ((raysOf D.dx (List.range D.dt)).map fun q =>
        if sumDist2 (g s q.1 q.2) ≠ 0 then (data (D.data s q.1 q.2) -
          fieldLine D.N s (g s q.1 q.2) (v q.1) R) / sumDist2 (g s q.1 q.2) * lenIn (g s q.1 q.2) n *
            (v q.1).1 else 0).sum / sensitivity D g s n ∧
      Q 1 (n + s * D.N) = R 1 (n + s * D.N) + ((raysOf D.dx (List.range D.dt)).map fun q =>
        if sumDist2 (g s q.1 q.2) ≠ 0 then (data (D.data s q.1 q.2) -
          fieldLine D.N s (g s q.1 q.2) (v q.1) R) / sumDist2 (g s q.1 q.2) * lenIn (g s q.1 q.2) n *
            (v q.1).2 else 0).sum / sensitivity D g s n := by
    intro m
    induction m with
    | zero =>
      intro _
      exact ⟨R, zeros, rfl, fun _ _ _ _ _ _ => rfl, fun _ _ => ⟨rfl, rfl⟩, fun s hs => absurd hs (by omega)⟩
    | succ m ih =>
      intro hm
      obtain ⟨Q, sd, h1, h2, h3, h4⟩ := ih (by omega)
      have hsum : ∀ n, (vecAcc D ngx ngy 0 m g v data Q sd).sumd n = sensitivity D g m n :=
        vecAcc_sumd D ngx ngy 0 m g v data Q sd
      obtain ⟨Q', p1, p2⟩ := vecPixel_fold hN guard m (vecAcc D ngx ngy 0 m g v data Q sd)
        (fun n hn => by rw [hsum]; exact hseen m (by omega) n hn) Q D.N (le_refl _)
      have hvl : ∀ q ∈ raysOf D.dx (List.range D.dt), vecLine ngx ngy 0 m (g m q.1 q.2) (v q.1) Q =
          fieldLine D.N m (g m q.1 q.2) (v q.1) R := by
        intro q hq
        have hq' := mem_raysOf.mp hq
        rw [vecLine_zero hN]
        exact fieldLine_congr (fun e he => (hg m (by omega) _ (List.mem_range.mp hq'.1) _ hq'.2 e he).1) _
          fun n _ => h3 _ (by omega)
      refine ⟨Q', (vecAcc D ngx ngy 0 m g v data Q sd).sd, ?_, ?_, ?_, ?_⟩
      · rw [List.range_succ, List.foldlM_append, h1]
        show (some (Q, sd)).bind (fun st => [m].foldlM _ st) = _
        rw [Option.bind_some, List.foldlM_cons]
        unfold vecSlice
        simp only
        rw [← hN, p1]
        rfl
      · intro s hs p hp d hd
        rw [vecAcc_sd _ _ _ _ _ _ _ _ _ _ (by omega) hp hd]
        exact h2 s (by omega) p hp d hd
      · intro i hi
        have hi' : m * D.N + D.N ≤ i := by rw [← Nat.succ_mul]; exact hi
        rw [(p2 i).1, (p2 i).2, if_neg (by omega), if_neg (by omega), add_zero, add_zero]
        exact h3 i (by omega)
      · intro s hs n hn
        rcases Nat.lt_succ_iff_lt_or_eq.mp hs with hlt | rfl
        · have hle : s * D.N + D.N ≤ m * D.N := by
            rw [← Nat.succ_mul]; exact Nat.mul_le_mul_right _ hlt
          rw [(p2 _).1, (p2 _).2, if_neg (by omega), if_neg (by omega), add_zero, add_zero]
          exact h4 s hlt n hn
        · obtain ⟨v1, v2⟩ := vecAcc_value (t := ⟨g, v, data⟩) (axis := 0) (by omega) (R := Q)
            (h2 s (le_refl _)) n (ngx := ngx) (ngy := ngy)
          simp only at v1 v2
          rw [(p2 _).1, (p2 _).2, if_pos (by omega), if_pos (by omega), Nat.add_sub_cancel, hsum,
            (h3 _ (by omega)).1, (h3 _ (by omega)).2, v1, v2]
          constructor
          · congr 3
            apply List.map_congr_left
            intro q hq
            rw [hvl q hq, ite_not]
          · congr 3
            apply List.map_congr_left
            intro q hq
            rw [hvl q hq, ite_not]
  obtain ⟨Q, sd, h1, _, _, h4⟩ := key D.dy (le_refl _)
  refine ⟨Q, ?_, h4⟩
  unfold vecPass
  rw [h1]
  rfl

end Field

/-! ## `vector` as gradient descent -/

section Real

variable {D : Dims} {ngx ngy : Nat} {g : Geom ℝ} {v : Nat → ℝ × ℝ} {data : Mem ℝ}

/-- One of the two components of a direction. -/
def dirc (v : ℝ × ℝ) (c : Fin 2) : ℝ := if c = 0 then v.1 else v.2

/-- Scaled lengths times direction. -/
noncomputable def veM (D : Dims) (g : Geom ℝ) (v : Nat → ℝ × ℝ) (s : Nat) :
    Matrix (HitIx D g s) (Fin D.N × Fin 2) ℝ :=
  fun q n => lenIn (g s q.1.1 q.1.2) n.1 * dirc (v q.1.1) n.2 /
    (Real.sqrt (sumDist2 (g s q.1.1 q.1.2)) * Real.sqrt (sensitivity D g s n.1))

/-- Scaled components. -/
noncomputable def veX (D : Dims) (g : Geom ℝ) (s : Nat) (R : Nat → Mem ℝ) : Fin D.N × Fin 2 → ℝ :=
  fun n => Real.sqrt (sensitivity D g s n.1) * R n.2 (n.1 + s * D.N)

theorem sens_pos' (hg : GeomOk D g) (hseen : ∀ s < D.dy, ∀ n < D.N, sensitivity D g s n ≠ 0)
    {s : Nat} (hs : s < D.dy) (n : Fin D.N) : 0 < sensitivity D g s n :=
  lt_of_le_of_ne (sensitivity_nonneg hg hs _) (Ne.symm (hseen s hs n n.2))

theorem fieldLine_eq {N s : Nat} {ray : Segs ℝ} (hr : ∀ e ∈ ray, e.1 < N) (w : ℝ × ℝ)
    (R : Nat → Mem ℝ) : fieldLine N s ray w R =
      ∑ n ∈ Finset.range N, (R 0 (n + s * N) * w.1 + R 1 (n + s * N) * w.2) * lenIn ray n :=
  lineSum_eq_sum_lenIn hr (fun i => R 0 i * w.1 + R 1 i * w.2)

theorem veM_mulVec (hg : GeomOk D g) (hseen : ∀ s < D.dy, ∀ n < D.N, sensitivity D g s n ≠ 0)
    {s : Nat} (hs : s < D.dy) (R : Nat → Mem ℝ) (q : HitIx D g s) :
    (veM D g v s *ᵥ veX D g s R) q =
      fieldLine D.N s (g s q.1.1 q.1.2) (v q.1.1) R / Real.sqrt (sumDist2 (g s q.1.1 q.1.2)) := by
  have hm := mem_hits.mp q.2
  rw [fieldLine_eq fun e he => (hg s hs _ hm.1.1 _ hm.1.2 e he).1, Finset.sum_div,
    ← Fin.sum_univ_eq_sum_range (fun n => (R 0 (n + s * D.N) * (v q.1.1).1 +
      R 1 (n + s * D.N) * (v q.1.1).2) * lenIn (g s q.1.1 q.1.2) n /
        Real.sqrt (sumDist2 (g s q.1.1 q.1.2))) D.N]
  simp only [mulVec, dotProduct]
  rw [Fintype.sum_prod_type]
  refine Finset.sum_congr rfl fun n _ => ?_
  rw [Fin.sum_univ_two]
  unfold veM veX dirc
  have h1 := Real.sqrt_pos.mpr (sens_pos' hg hseen hs n)
  have h2 := Real.sqrt_pos.mpr (sumDist2_pos_hit q.2)
  simp only [if_true, Fin.isValue, one_ne_zero, if_false, Fin.val_zero, Fin.val_one]
  field_simp

theorem veX_dot (hg : GeomOk D g) {s : Nat} (hs : s < D.dy) (R Z : Nat → Mem ℝ) :
    (veX D g s R - veX D g s Z) ⬝ᵥ (veX D g s R - veX D g s Z) = vdist D g s R Z := by
  unfold vdist wdist
  rw [← Fin.sum_univ_eq_sum_range (fun n => sensitivity D g s n * (R 0 (n + s * D.N) - Z 0 (n + s * D.N)) ^ 2),
    ← Fin.sum_univ_eq_sum_range (fun n => sensitivity D g s n * (R 1 (n + s * D.N) - Z 1 (n + s * D.N)) ^ 2),
    ← Finset.sum_add_distrib]
  simp only [dotProduct]
  rw [Fintype.sum_prod_type]
  refine Finset.sum_congr rfl fun n _ => ?_
  rw [Fin.sum_univ_two]
  have h1 := Real.mul_self_sqrt (sensitivity_nonneg hg hs n)
  show (Real.sqrt _ * R 0 _ - Real.sqrt _ * Z 0 _) * (Real.sqrt _ * R 0 _ - Real.sqrt _ * Z 0 _) +
    (Real.sqrt _ * R 1 _ - Real.sqrt _ * Z 1 _) * (Real.sqrt _ * R 1 _ - Real.sqrt _ * Z 1 _) = _
  calc _ = (Real.sqrt (sensitivity D g s n) * Real.sqrt (sensitivity D g s n)) *
        ((R 0 (n + s * D.N) - Z 0 (n + s * D.N)) ^ 2 + (R 1 (n + s * D.N) - Z 1 (n + s * D.N)) ^ 2) := by
        ring
    _ = _ := by rw [h1, mul_add]

theorem veX_norm (hg : GeomOk D g) {s : Nat} (hs : s < D.dy) (R : Nat → Mem ℝ) :
    veX D g s R ⬝ᵥ veX D g s R = vdist D g s R (fun _ _ => 0) := by
  rw [← veX_dot hg hs]
  have : veX D g s (fun _ _ => 0) = 0 := by funext n; unfold veX; simp
  rw [this, sub_zero]

theorem vres_eq (hg : GeomOk D g) (hseen : ∀ s < D.dy, ∀ n < D.N, sensitivity D g s n ≠ 0)
    {s : Nat} (hs : s < D.dy) (R : Nat → Mem ℝ) :
    vres D g v data s R = Lw.res2 (veM D g v s) (siB D g data s) (veX D g s R) := by
  unfold vres Lw.res2
  rw [sum_hits, ← Finset.sum_coe_sort (hits D g s)]
  simp only [dotProduct]
  refine Finset.sum_congr rfl fun q _ => ?_
  have e : (veM D g v s *ᵥ veX D g s R - siB D g data s) q =
      (fieldLine D.N s (g s q.1.1 q.1.2) (v q.1.1) R - data (D.data s q.1.1 q.1.2)) /
        Real.sqrt (sumDist2 (g s q.1.1 q.1.2)) := by
    rw [Pi.sub_apply, veM_mulVec hg hseen hs, sub_div]
    rfl
  rw [e, div_mul_div_comm, Real.mul_self_sqrt (sumDist2_pos_hit q.2).le]
  ring

/-- A field with given scaled components on every slice. -/
theorem veX_surj (hg : GeomOk D g) (hseen : ∀ s < D.dy, ∀ n < D.N, sensitivity D g s n ≠ 0)
    (ξ : Nat → Fin D.N × Fin 2 → ℝ) : ∃ R : Nat → Mem ℝ, ∀ s < D.dy, veX D g s R = ξ s := by
  classical
  refine ⟨fun c i => if h : i % D.N < D.N ∧ c < 2 then
    ξ (i / D.N) (⟨i % D.N, h.1⟩, ⟨c, h.2⟩) / Real.sqrt (sensitivity D g (i / D.N) (i % D.N)) else 0,
    fun s hs => ?_⟩
  funext n
  obtain ⟨n, c⟩ := n
  unfold veX
  have hn := n.2
  have e1 : (n + s * D.N) % D.N = n := by rw [Nat.add_mul_mod_self_right, Nat.mod_eq_of_lt hn]
  have e2 : (n + s * D.N) / D.N = s := by
    rw [Nat.add_mul_div_right _ _ (by omega), Nat.div_eq_of_lt hn, Nat.zero_add]
  show _ * dite _ _ _ = _
  rw [dif_pos ⟨by rw [e1]; exact hn, c.2⟩]
  simp only [e1, e2]
  have := Real.sqrt_pos.mpr (sens_pos' hg hseen hs n)
  field_simp

theorem vector_lwStep (hN : D.N = ngx * ngy) (hg : GeomOk D g)
    (hseen : ∀ s < D.dy, ∀ n < D.N, sensitivity D g s n ≠ 0) {s : Nat} (hs : s < D.dy)
    {R R' : Nat → Mem ℝ} (h : vecPass D ngx ngy 0 0 false g v data R = some R') :
    veX D g s R' = Lw.step (veM D g v s) (siB D g data s) (1 / 2) (veX D g s R) := by
  obtain ⟨R1, h1, h2⟩ := vector_pass hN hg hseen v data false R
  rw [h] at h1
  obtain rfl := Option.some.inj h1
  funext nc
  obtain ⟨n, c⟩ := nc
  unfold Lw.step
  have hsq := Real.sqrt_pos.mpr (sens_pos' hg hseen hs n)
  have hss := Real.mul_self_sqrt (sens_pos' hg hseen hs n).le
  have e : ((veM D g v s *ᵥ veX D g s R - siB D g data s) ᵥ* veM D g v s) (n, c) =
      (∑ q ∈ hits D g s, (fieldLine D.N s (g s q.1 q.2) (v q.1) R - data (D.data s q.1 q.2)) /
        sumDist2 (g s q.1 q.2) * lenIn (g s q.1 q.2) n * dirc (v q.1) c) /
          Real.sqrt (sensitivity D g s n) := by
    rw [← Finset.sum_coe_sort (hits D g s), Finset.sum_div]
    simp only [vecMul, dotProduct]
    refine Finset.sum_congr rfl fun q _ => ?_
    rw [Pi.sub_apply, veM_mulVec hg hseen hs]
    unfold siB veM
    have h3 := Real.sqrt_pos.mpr (sumDist2_pos_hit q.2)
    have h4 := Real.mul_self_sqrt (sumDist2_pos_hit q.2).le
    rw [← sub_div, div_mul_div_comm, ← mul_assoc (Real.sqrt _) (Real.sqrt _), h4, ← mul_assoc,
      div_mul_eq_mul_div, div_mul_eq_mul_div, div_div]
  have e3 : R' c (n + s * D.N) = R c (n + s * D.N) + (∑ q ∈ hits D g s,
      (data (D.data s q.1 q.2) - fieldLine D.N s (g s q.1 q.2) (v q.1) R) /
        sumDist2 (g s q.1 q.2) * lenIn (g s q.1 q.2) n * dirc (v q.1) c) / sensitivity D g s n := by
    rw [← sum_hits]
    fin_cases c
    · exact (h2 s hs n n.2).1
    · exact (h2 s hs n n.2).2
  show Real.sqrt (sensitivity D g s n) * R' c (n + s * D.N) =
    Real.sqrt (sensitivity D g s n) * R c (n + s * D.N) - 2 * (1 / 2) * _
  rw [e, e3]
  have e2 : ∑ q ∈ hits D g s, (data (D.data s q.1 q.2) - fieldLine D.N s (g s q.1 q.2) (v q.1) R) /
        sumDist2 (g s q.1 q.2) * lenIn (g s q.1 q.2) n * dirc (v q.1) c =
      - ∑ q ∈ hits D g s, (fieldLine D.N s (g s q.1 q.2) (v q.1) R - data (D.data s q.1 q.2)) /
        sumDist2 (g s q.1 q.2) * lenIn (g s q.1 q.2) n * dirc (v q.1) c := by
    rw [← Finset.sum_neg_distrib]
    exact Finset.sum_congr rfl fun q _ => by ring
  rw [e2]
  generalize ∑ q ∈ hits D g s, (fieldLine D.N s (g s q.1 q.2) (v q.1) R - data (D.data s q.1 q.2)) /
        sumDist2 (g s q.1 q.2) * lenIn (g s q.1 q.2) n * dirc (v q.1) c = S
  rw [mul_add, show Real.sqrt (sensitivity D g s n) * (-S / sensitivity D g s n) =
    -(S / Real.sqrt (sensitivity D g s n)) from by
      rw [← hss]
      field_simp
      rw [Real.sqrt_sq hsq.le]]
  ring

theorem vector_value (hN : D.N = ngx * ngy) (hg : GeomOk D g)
    (hseen : ∀ s < D.dy, ∀ n < D.N, sensitivity D g s n ≠ 0) (data : Mem ℝ) (R : Nat → Mem ℝ) :
    ∃ x : ℕ → Nat → Mem ℝ, (∀ k, vector D ngx ngy g v data k R = some (x k)) ∧
      ∀ k, ∀ s < D.dy, veX D g s (x k) =
        (Lw.step (veM D g v s) (siB D g data s) (1 / 2))^[k] (veX D g s R) := by
  have hdef : ∀ k, ∃ y, vector D ngx ngy g v data k R = some y := by
    intro k
    obtain ⟨y, hy, _⟩ := iterM_inv (vecPass D ngx ngy 0 0 false g v data) (fun _ => True)
      (fun b _ => by
        obtain ⟨b', hb, _⟩ := vector_pass hN hg hseen v data false b
        exact ⟨b', hb, trivial⟩) k R trivial
    exact ⟨y, hy⟩
  choose x hx using hdef
  refine ⟨x, hx, fun k => ?_⟩
  induction k with
  | zero =>
    have : x 0 = R := (Option.some.inj (hx 0)).symm
    intro s _
    rw [this]
    rfl
  | succ k ih =>
    intro s hs
    have h := hx (k + 1)
    unfold vector at h
    rw [iterM_succ_last] at h
    have hk := hx k
    unfold vector at hk
    rw [hk, Option.bind_some] at h
    rw [vector_lwStep hN hg hseen hs h, ih s hs, Function.iterate_succ_apply']

theorem vecOk_iff (hg : GeomOk D g) (hseen : ∀ s < D.dy, ∀ n < D.N, sensitivity D g s n ≠ 0) :
    VecOk D g v ↔ ∀ s < D.dy, ∀ ξ, ξ ≠ 0 →
      1 / 2 * ((veM D g v s *ᵥ ξ) ⬝ᵥ (veM D g v s *ᵥ ξ)) < ξ ⬝ᵥ ξ := by
  have hz : ∀ s, siB D g (fun _ => 0) s = 0 := fun s => by funext q; unfold siB; simp
  constructor
  · intro h s hs ξ hξ
    obtain ⟨R, hR⟩ := veX_surj hg hseen (fun _ => ξ)
    rw [← hR s hs] at hξ ⊢
    have := h s hs R
    rw [← veX_norm hg hs, vres_eq hg hseen hs, hz] at this
    unfold Lw.res2 at this
    rw [sub_zero] at this
    have := this (fun e => hξ (Lw.dot_zero_iff.mp e))
    linarith
  · intro h s hs u hu
    rw [← veX_norm hg hs] at hu ⊢
    have := h s hs (veX D g s u) (fun e => hu (Lw.dot_zero_iff.mpr e))
    rw [vres_eq hg hseen hs, hz]
    unfold Lw.res2
    rw [sub_zero]
    linarith

/-- **C163**: if every pixel is crossed by a ray and `VecOk` holds, the results of `vector` converge
for all data and initial fields to the minimiser of the weighted residual nearest to the initial
field. -/
theorem vector_limit (hN : D.N = ngx * ngy) (hg : GeomOk D g)
    (hseen : ∀ s < D.dy, ∀ n < D.N, sensitivity D g s n ≠ 0) (hok : VecOk D g v) (data : Mem ℝ)
    (R : Nat → Mem ℝ) :
    ∃ (x : ℕ → Nat → Mem ℝ) (U : Nat → Mem ℝ), (∀ k, vector D ngx ngy g v data k R = some (x k)) ∧
      ∀ s < D.dy, (∀ n < D.N, ∀ c < 2,
          Tendsto (fun k => x k c (n + s * D.N)) atTop (𝓝 (U c (n + s * D.N)))) ∧
        (∀ U', vres D g v data s U ≤ vres D g v data s U') ∧
        ∀ U', vres D g v data s U' = vres D g v data s U → vdist D g s U R ≤ vdist D g s U' R := by
  obtain ⟨x, hx, hv⟩ := vector_value (v := v) hN hg hseen data R
  rw [vecOk_iff hg hseen] at hok
  have hz : ∀ s, ∃ z : Fin D.N × Fin 2 → ℝ, s < D.dy → Lw.Normal (veM D g v s) (siB D g data s) z ∧
      Tendsto (fun k => (Lw.step (veM D g v s) (siB D g data s) (1 / 2))^[k] (veX D g s R)) atTop (𝓝 z) ∧
      ∃ y, z - veX D g s R = y ᵥ* veM D g v s := by
    intro s
    by_cases hs : s < D.dy
    · obtain ⟨κ, k0, k1, hκ⟩ := Lw.uniform_of_strict (by norm_num) (hok s hs)
      obtain ⟨z, h⟩ := Lw.converges (τ := 1 / 2) (by norm_num) k0 k1 hκ (siB D g data s) (veX D g s R)
      exact ⟨z, fun _ => h⟩
    · exact ⟨0, fun h => absurd h hs⟩
  choose z hz using hz
  obtain ⟨U, hU⟩ := veX_surj hg hseen z
  refine ⟨x, U, hx, fun s hs => ⟨fun n hn c hc => ?_, fun U' => ?_, fun U' he => ?_⟩⟩
  · have ht := (tendsto_pi_nhds.mp (hz s hs).2.1) (⟨n, hn⟩, ⟨c, hc⟩)
    have h2 := ht.div_const (Real.sqrt (sensitivity D g s n))
    have hp := Real.sqrt_pos.mpr (sens_pos' hg hseen hs ⟨n, hn⟩)
    have e : z s (⟨n, hn⟩, ⟨c, hc⟩) / Real.sqrt (sensitivity D g s n) = U c (n + s * D.N) := by
      rw [← hU s hs]
      unfold veX
      simp only at hp ⊢
      field_simp
    rw [e] at h2
    refine h2.congr fun k => ?_
    rw [← hv k s hs]
    unfold veX
    simp only at hp ⊢
    field_simp
  · rw [vres_eq hg hseen hs, vres_eq hg hseen hs, hU s hs]
    exact Lw.normal_minimises (hz s hs).1 _
  · rw [vres_eq hg hseen hs, vres_eq hg hseen hs, hU s hs] at he
    have hn : Lw.Normal (veM D g v s) (siB D g data s) (veX D g s U') :=
      Lw.minimises_normal fun ξ => he ▸ Lw.normal_minimises (hz s hs).1 ξ
    have := Lw.nearest (hz s hs).1 hn (hz s hs).2.2
    rw [← hU s hs, veX_dot hg hs, veX_dot hg hs] at this
    exact this

/-- **C163**: the results of `vector` are defined and converge for all data and initial fields exactly
if every pixel is crossed by a ray and `VecOk` holds. -/
theorem vector_converges_iff (hN : D.N = ngx * ngy) (hg : GeomOk D g) :
    (∀ data R, ∃ (x : ℕ → Nat → Mem ℝ) (U : Nat → Mem ℝ),
      (∀ k, vector D ngx ngy g v data k R = some (x k)) ∧
      ∀ s < D.dy, ∀ n < D.N, ∀ c < 2,
        Tendsto (fun k => x k c (n + s * D.N)) atTop (𝓝 (U c (n + s * D.N)))) ↔
    (∀ s < D.dy, ∀ n < D.N, sensitivity D g s n ≠ 0) ∧ VecOk D g v := by
  constructor
  · intro h
    have hseen : ∀ s < D.dy, ∀ n < D.N, sensitivity D g s n ≠ 0 := by
      intro s hs n hn h0
      obtain ⟨x, _, hx, _⟩ := h (fun _ => 0) (fun _ _ => 0)
      have hp : vecPass D ngx ngy 0 0 false g v (fun _ => 0) (fun _ _ => 0) = none := by
        unfold vecPass
        rw [Option.map_eq_none_iff]
        refine foldlM_none (List.mem_range.mpr hs) (fun st => ?_) _
        unfold vecSlice
        rw [Option.map_eq_none_iff]
        refine foldlM_none (List.mem_range.mpr (hN ▸ hn)) (fun R => ?_) _
        unfold vecPixel
        rw [vecAcc_sumd, h0]
        simp
      have h1 := hx 1
      unfold vector at h1
      simp only [iterM, hp] at h1
      cases h1
    refine ⟨hseen, ?_⟩
    by_contra hno
    rw [vecOk_iff hg hseen] at hno
    push Not at hno
    obtain ⟨s, hs, ξ, hξ, hle⟩ := hno
    obtain ⟨e, i, hne⟩ := Lw.not_converges (τ := 1 / 2) (by norm_num) hξ hle
    obtain ⟨R, hR⟩ := veX_surj hg hseen (fun _ => e)
    obtain ⟨x, U, hx, hu⟩ := h (fun _ => 0) R
    obtain ⟨x', hx', hv⟩ := vector_value (v := v) hN hg hseen (fun _ => 0) R
    have ex : x' = x := funext fun k => Option.some.inj ((hx' k).symm.trans (hx k))
    subst ex
    have hz : siB D g (fun _ => 0) s = 0 := by funext q; unfold siB; simp
    apply hne (Real.sqrt (sensitivity D g s i.1) * U i.2 (i.1 + s * D.N))
    have := (hu s hs i.1 i.1.2 i.2 i.2.2).const_mul (Real.sqrt (sensitivity D g s i.1))
    refine this.congr fun k => ?_
    rw [← hz, ← hR s hs, ← (hv k s hs)]
    rfl
  · rintro ⟨hseen, hok⟩ data R
    obtain ⟨x, U, h1, h2⟩ := vector_limit hN hg hseen hok data R
    exact ⟨x, U, h1, fun s hs => (h2 s hs).1⟩

/-- **C163**: the condition holds if the directions are at most unit vectors and `sirt` converges for
the same rays. -/
theorem vecOk_of_rays (hg : GeomOk D g) (hv : ∀ p < D.dt, (v p).1 ^ 2 + (v p).2 ^ 2 ≤ 1)
    (h : ∀ s < D.dy, ∀ p < D.dt, ∀ d < D.dx,
      sumDist2 (g s p d) ≠ 0 → rayLength (g s p d) < 2 * sumDist2 (g s p d)) : VecOk D g v := by
  intro s hs R hR
  have hq0 : ∀ q ∈ hits D g s, ∀ n, 0 ≤ lenIn (g s q.1 q.2) n := fun q hq n =>
    lenIn_nonneg (hg s hs _ (mem_hits.mp hq).1.1 _ (mem_hits.mp hq).1.2) n
  have hd : vdist D g s R (fun _ _ => 0) = ∑ q ∈ hits D g s, ∑ n ∈ Finset.range D.N,
      lenIn (g s q.1 q.2) n * (R 0 (n + s * D.N) ^ 2 + R 1 (n + s * D.N) ^ 2) := by
    unfold vdist
    rw [wdist_rays, wdist_rays, ← Finset.sum_add_distrib]
    refine Finset.sum_congr rfl fun q _ => ?_
    rw [← Finset.sum_add_distrib]
    exact Finset.sum_congr rfl fun n _ => by ring
  have hW : ∀ q ∈ hits D g s, 0 ≤ ∑ n ∈ Finset.range D.N,
      lenIn (g s q.1 q.2) n * (R 0 (n + s * D.N) ^ 2 + R 1 (n + s * D.N) ^ 2) :=
    fun q hq => Finset.sum_nonneg fun n _ => mul_nonneg (hq0 q hq n) (by positivity)
  have hcs : ∀ q ∈ hits D g s, fieldLine D.N s (g s q.1 q.2) (v q.1) R ^ 2 ≤
      rayLength (g s q.1 q.2) * ∑ n ∈ Finset.range D.N,
        lenIn (g s q.1 q.2) n * (R 0 (n + s * D.N) ^ 2 + R 1 (n + s * D.N) ^ 2) := by
    intro q hq
    have hm := mem_hits.mp hq
    rw [rayLength_eq fun e he => (hg s hs _ hm.1.1 _ hm.1.2 e he).1,
      fieldLine_eq fun e he => (hg s hs _ hm.1.1 _ hm.1.2 e he).1]
    refine Finset.sum_sq_le_sum_mul_sum_of_sq_le_mul _ (fun n _ => hq0 q hq n)
      (fun n _ => mul_nonneg (hq0 q hq n) (by positivity)) fun n _ => ?_
    have h1 := hv q.1 hm.1.1
    have h2 : (R 0 (n + s * D.N) * (v q.1).1 + R 1 (n + s * D.N) * (v q.1).2) ^ 2 ≤
        (R 0 (n + s * D.N) ^ 2 + R 1 (n + s * D.N) ^ 2) * ((v q.1).1 ^ 2 + (v q.1).2 ^ 2) := by
      nlinarith [sq_nonneg (R 0 (n + s * D.N) * (v q.1).2 - R 1 (n + s * D.N) * (v q.1).1)]
    have h3 : (R 0 (n + s * D.N) ^ 2 + R 1 (n + s * D.N) ^ 2) * ((v q.1).1 ^ 2 + (v q.1).2 ^ 2) ≤
        (R 0 (n + s * D.N) ^ 2 + R 1 (n + s * D.N) ^ 2) * 1 :=
      mul_le_mul_of_nonneg_left h1 (by positivity)
    rw [mul_pow]
    have h4 := mul_le_mul_of_nonneg_right (h2.trans h3) (sq_nonneg (lenIn (g s q.1 q.2) n))
    linarith
  unfold vres
  rw [sum_hits, hd, Finset.mul_sum]
  rw [hd] at hR
  obtain ⟨q, hq, hne⟩ := Finset.exists_ne_zero_of_sum_ne_zero hR
  refine Finset.sum_lt_sum (fun q hq => ?_) ⟨q, hq, ?_⟩
  · have hm := mem_hits.mp hq
    have hp := sumDist2_pos_hit hq
    rw [sub_zero, div_le_iff₀ hp]
    have := h s hs _ hm.1.1 _ hm.1.2 hm.2
    have := mul_le_mul_of_nonneg_right this.le (hW q hq)
    have := hcs q hq
    linarith
  · have hm := mem_hits.mp hq
    have hp := sumDist2_pos_hit hq
    rw [sub_zero, div_lt_iff₀ hp]
    have := h s hs _ hm.1.1 _ hm.1.2 hm.2
    have := mul_lt_mul_of_pos_right this (lt_of_le_of_ne (hW q hq) (Ne.symm hne))
    have := hcs q hq
    linarith

/-- **C163**: for data that are the line integrals of some field, the limit has exactly these line
integrals. -/
theorem vector_consistent_limit (hN : D.N = ngx * ngy) (hg : GeomOk D g)
    (hseen : ∀ s < D.dy, ∀ n < D.N, sensitivity D g s n ≠ 0) (hok : VecOk D g v) {Z : Nat → Mem ℝ}
    (hc : ∀ s < D.dy, ∀ p < D.dt, ∀ d < D.dx, data (D.data s p d) = fieldLine D.N s (g s p d) (v p) Z)
    (R : Nat → Mem ℝ) :
    ∃ (x : ℕ → Nat → Mem ℝ) (U : Nat → Mem ℝ), (∀ k, vector D ngx ngy g v data k R = some (x k)) ∧
      ∀ s < D.dy, (∀ n < D.N, ∀ c < 2,
          Tendsto (fun k => x k c (n + s * D.N)) atTop (𝓝 (U c (n + s * D.N)))) ∧
        ∀ p < D.dt, ∀ d < D.dx, sumDist2 (g s p d) ≠ 0 →
          fieldLine D.N s (g s p d) (v p) U = data (D.data s p d) := by
  obtain ⟨x, U, h1, h2⟩ := vector_limit hN hg hseen hok data R
  refine ⟨x, U, h1, fun s hs => ⟨(h2 s hs).1, fun p hp d hd hne => ?_⟩⟩
  have h3 := (h2 s hs).2.1 Z
  unfold vres at h3
  rw [sum_hits, sum_hits] at h3
  have h4 : ∑ q ∈ hits D g s, (fieldLine D.N s (g s q.1 q.2) (v q.1) Z - data (D.data s q.1 q.2)) ^ 2 /
      sumDist2 (g s q.1 q.2) = 0 := by
    refine Finset.sum_eq_zero fun q hq => ?_
    have hm := mem_hits.mp hq
    rw [hc s hs _ hm.1.1 _ hm.1.2, sub_self]
    simp
  rw [h4] at h3
  have hnn : ∀ q ∈ hits D g s, 0 ≤ (fieldLine D.N s (g s q.1 q.2) (v q.1) U -
      data (D.data s q.1 q.2)) ^ 2 / sumDist2 (g s q.1 q.2) :=
    fun q hq => div_nonneg (sq_nonneg _) (sumDist2_nonneg _)
  have h5 := (Finset.sum_eq_zero_iff_of_nonneg hnn).mp (le_antisymm h3 (Finset.sum_nonneg hnn))
    (p, d) (mem_hits.mpr ⟨⟨hp, hd⟩, hne⟩)
  rw [div_eq_zero_iff] at h5
  rcases h5 with h5 | h5
  · exact sub_eq_zero.mp (pow_eq_zero_iff (two_ne_zero) |>.mp h5)
  · exact absurd h5 hne

end Real

/-! ## Cases that meet the hypotheses -/

/-- The directions of `vector` (`vecDir_unit`) are unit vectors. -/
example (θ : Nat → ℝ) (p : Nat) : (-Real.cos (θ p)) ^ 2 + (-Real.sin (θ p)) ^ 2 ≤ 1 := by
  have := Real.sin_sq_add_cos_sq (θ p)
  nlinarith

/-- Two pixels, two angles, each with one ray through both pixels; any angles, data and fields. -/
theorem seG_vecOk (θ : Nat → ℝ) :
    VecOk ⟨1, 2, 1, 2⟩ seG (fun p => (-Real.cos (θ p), -Real.sin (θ p))) := by
  refine vecOk_of_rays seG_ok (fun p _ => ?_) fun s _ p _ d _ _ => ?_
  · have := Real.sin_sq_add_cos_sq (θ p)
    nlinarith
  · simp only [seG, rayLength, sumDist2, List.foldl_cons, List.foldl_nil, List.map_cons, List.map_nil,
      List.sum_cons, List.sum_nil]
    have : (0 : ℝ) ≤ p := Nat.cast_nonneg p
    nlinarith

theorem seG_seen : ∀ s < 1, ∀ n < 2, sensitivity ⟨1, 2, 1, 2⟩ seG s n ≠ 0 := by
  intro s _ n hn
  apply ne_of_gt
  simp only [sensitivity, raysOf, seG, lenIn]
  interval_cases n
  · norm_num [List.range_succ]
  · norm_num [List.range_succ]

example (θ : Nat → ℝ) (data : Mem ℝ) (R : Nat → Mem ℝ) :
    ∃ (x : ℕ → Nat → Mem ℝ) (U : Nat → Mem ℝ),
      (∀ k, vector ⟨1, 2, 1, 2⟩ 1 2 seG (fun p => (-Real.cos (θ p), -Real.sin (θ p))) data k R =
        some (x k)) ∧
      ∀ s < 1, ∀ n < 2, ∀ c < 2,
        Tendsto (fun k => x k c (n + s * 2)) atTop (𝓝 (U c (n + s * 2))) :=
  (vector_converges_iff (D := ⟨1, 2, 1, 2⟩) (by rfl) seG_ok).mpr ⟨seG_seen, seG_vecOk θ⟩ data R

end Tomopy.Iter
