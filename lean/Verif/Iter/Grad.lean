import Verif.Iter.Osem

/-!
# Gradient methods (C37)
-/

set_option linter.unusedSectionVars false

namespace Tomopy.Iter

open Function (update)

variable {K : Type*} [Field K] [LinearOrder K] [IsStrictOrderedRing K]

/-! ## Pixel loops -/

theorem range_mul (a b : Nat) :
    (List.range a).flatMap (fun i => (List.range b).map fun j => i * b + j) = List.range (a * b) := by
  induction a with
  | zero => simp
  | succ a ih =>
    rw [List.range_succ, List.flatMap_append, ih, Nat.succ_mul, List.range_add]
    simp

theorem foldl_update_nodup (f : Nat → K → K) (l : List Nat) (hl : l.Nodup) (m : Mem K) (x : Nat) :
    l.foldl (fun m a => update m a (f a (m a))) m x = if x ∈ l then f x (m x) else m x := by
  induction l generalizing m with
  | nil => simp
  | cons a l ih =>
    rw [List.nodup_cons] at hl
    rw [List.foldl_cons, ih hl.2]
    by_cases hx : x = a
    · subst hx
      simp [hl.1]
    · simp [hx]

theorem forPix_apply (dy ngx ngy : Nat) (f : Nat → Nat → K → K) (m : Mem K) (x : Nat) :
    forPix dy ngx ngy f m x =
      if x < dy * (ngx * ngy) then f (x / (ngx * ngy)) x (m x) else m x := by
  have e : forPix dy ngx ngy f m = (List.range (dy * (ngx * ngy))).foldl
      (fun m a => update m a (f (a / (ngx * ngy)) a (m a))) m := by
    rw [← range_mul dy (ngx * ngy), List.foldl_flatMap]
    unfold forPix
    congr 1
    funext m s
    rw [List.foldl_map, Nat.mul_comm ngx ngy, ← range_mul ngy ngx, List.foldl_flatMap]
    refine List.foldl_ext _ _ _ ?_
    intro m iy hiy
    rw [List.foldl_map]
    refine List.foldl_ext _ _ _ ?_
    intro m ix hix
    rw [List.mem_range] at hiy hix
    have h1 : iy * ngx + ix < ngy * ngx := by
      calc iy * ngx + ix < iy * ngx + ngx := by omega
        _ = (iy + 1) * ngx := by ring
        _ ≤ ngy * ngx := Nat.mul_le_mul_right _ hiy
    have h2 : (s * (ngy * ngx) + (iy * ngx + ix)) / (ngy * ngx) = s := by
      rw [Nat.mul_comm s, Nat.mul_add_div (by omega), Nat.div_eq_of_lt h1, Nat.add_zero]
    rw [h2, Nat.add_assoc]
  rw [e, foldl_update_nodup _ _ List.nodup_range]
  simp

theorem sumPix_eq (ngx ngy s : Nat) (f : Nat → K) :
    sumPix ngx ngy s f = ∑ n ∈ Finset.range (ngx * ngy), f (n + s * (ngx * ngy)) := by
  have e : sumPix ngx ngy s f = (List.range (ngx * ngy)).foldl
      (fun a n => a + f (n + s * (ngx * ngy))) 0 := by
    rw [Nat.mul_comm ngx ngy, ← range_mul ngy ngx, List.foldl_flatMap]
    unfold sumPix
    congr 1
    funext a iy
    rw [List.foldl_map, Nat.mul_comm ngx ngy]
    congr 1
    funext a ix
    congr 2
    omega
  have key : ∀ (l : List Nat) (a : K), l.foldl (fun a n => a + f (n + s * (ngx * ngy))) a =
      a + (l.map fun n => f (n + s * (ngx * ngy))).sum := by
    intro l
    induction l with
    | nil => simp
    | cons n l ih => intro a; rw [List.foldl_cons, ih]; simp [add_assoc]
  rw [e, key, zero_add, sum_range_list]

/-! ## The gradient -/

/-- All rays in the order slice, projection, detector pixel. -/
def allRays (D : Dims) : List (Nat × Nat × Nat) :=
  (List.range D.dy).flatMap fun s => (List.range D.dt).flatMap fun p =>
    (List.range D.dx).map fun d => (s, p, d)

theorem mem_allRays {D : Dims} {t : Nat × Nat × Nat} :
    t ∈ allRays D ↔ t.1 < D.dy ∧ t.2.1 < D.dt ∧ t.2.2 < D.dx := by
  obtain ⟨s, p, d⟩ := t
  simp only [allRays, List.mem_flatMap, List.mem_range, List.mem_map, Prod.mk.injEq]
  constructor
  · rintro ⟨p', hp, d', hd, s', hs, rfl, rfl, rfl⟩; exact ⟨hp, hd, hs⟩
  · rintro ⟨hp, hd, hs⟩; exact ⟨s, hp, p, hd, d, hs, rfl, rfl, rfl⟩

theorem allRays_nodup (D : Dims) : (allRays D).Nodup := by
  unfold allRays
  rw [List.nodup_flatMap]
  refine ⟨fun p _ => ?_, List.Pairwise.imp ?_ (List.nodup_range (n := D.dy))⟩
  · rw [List.nodup_flatMap]
    refine ⟨fun d _ => ?_, List.Pairwise.imp ?_ (List.nodup_range (n := D.dt))⟩
    · exact (List.nodup_map_iff fun a b h => by simpa using h).mpr List.nodup_range
    · intro a b hab x hx hy
      obtain ⟨_, _, rfl⟩ := List.mem_map.mp hx
      obtain ⟨_, _, h⟩ := List.mem_map.mp hy
      simp only [Prod.mk.injEq] at h
      exact hab h.2.1.symm
  · intro a b hab x hx hy
    obtain ⟨_, _, hx⟩ := List.mem_flatMap.mp hx
    obtain ⟨_, _, rfl⟩ := List.mem_map.mp hx
    obtain ⟨_, _, hy⟩ := List.mem_flatMap.mp hy
    obtain ⟨_, _, h⟩ := List.mem_map.mp hy
    simp only [Prod.mk.injEq] at h
    exact hab h.1.symm

/-- The contribution of one ray to the gradient. -/
def gradTerm (D : Dims) (g : Geom K) (data recon : Mem K) (r : K) (gr : Mem K)
    (t : Nat × Nat × Nat) : Mem K :=
  if sumDist2 (g t.1 t.2.1 t.2.2) ≠ 0 then
    spread D t.1 (g t.1 t.2.1 t.2.2) (2 * r *
      (lineSum D.N t.1 (g t.1 t.2.1 t.2.2) recon * r - data (D.data t.1 t.2.1 t.2.2))) gr
  else gr

theorem gradient_eq (D : Dims) (g : Geom K) (data recon : Mem K) (r : K) :
    gradient D g data recon r = (allRays D).foldl (gradTerm D g data recon r) zeros := by
  have h0 : gradient D g data recon r = ((allRays D).foldl (fun st t =>
      gradRay D t.1 t.2.1 t.2.2 (g t.1 t.2.1 t.2.2) data recon r st) (zeros, zeros)).2 := by
    unfold gradient allRays
    simp only [List.foldl_flatMap, List.foldl_map]
  rw [h0]
  have key : ∀ (l : List (Nat × Nat × Nat)) (sd gr : Mem K), l.Nodup →
      (∀ t ∈ l, t.1 < D.dy ∧ t.2.1 < D.dt ∧ t.2.2 < D.dx) →
      (∀ t ∈ l, sd (D.data t.1 t.2.1 t.2.2) = 0) →
      (l.foldl (fun st t => gradRay D t.1 t.2.1 t.2.2 (g t.1 t.2.1 t.2.2) data recon r st)
        (sd, gr)).2 = l.foldl (gradTerm D g data recon r) gr := by
    intro l
    induction l with
    | nil => intro sd gr _ _ _; rfl
    | cons t l ih =>
      intro sd gr hnd hb h0
      rw [List.nodup_cons] at hnd
      have ht := hb t List.mem_cons_self
      have hz := h0 t List.mem_cons_self
      simp only [List.foldl_cons]
      have e : gradRay D t.1 t.2.1 t.2.2 (g t.1 t.2.1 t.2.2) data recon r (sd, gr) =
          (calcSimdata D t.1 t.2.1 t.2.2 (g t.1 t.2.1 t.2.2) recon sd,
            gradTerm D g data recon r gr t) := by
        unfold gradRay gradTerm
        simp only [calcSimdata_apply, if_true, hz, zero_add]
      rw [e]
      refine ih _ _ hnd.2 (fun t' ht' => hb t' (List.mem_cons_of_mem _ ht')) ?_
      intro t' ht'
      have hb' := hb t' (List.mem_cons_of_mem _ ht')
      rw [calcSimdata_apply, if_neg, add_zero]
      · exact h0 t' (List.mem_cons_of_mem _ ht')
      · intro e
        obtain ⟨e1, e2, e3⟩ := data_inj ht.2.1 hb'.2.1 ht.2.2 hb'.2.2 e
        exact hnd.1 (by
          have : t = t' := Prod.ext e1 (Prod.ext e2 e3)
          rw [this]; exact ht')
  exact key _ _ _ (allRays_nodup D) (fun t ht => mem_allRays.mp ht) (fun _ _ => rfl)

/-- The gradient of `Σ (r * lineSum recon - data)²` (specification): twice the back-projected
residual of the rays that hit the slice. -/
def gradSpec (D : Dims) (g : Geom K) (data recon : Mem K) (r : K) (s n : Nat) : K :=
  ∑ p ∈ Finset.range D.dt, ∑ d ∈ Finset.range D.dx,
    2 * r * (r * lineSum D.N s (g s p d) recon - data (D.data s p d)) * lenIn (g s p d) n

theorem list_sum_flatMap {α : Type*} (l : List α) (f : α → List K) :
    (l.flatMap f).sum = (l.map fun a => (f a).sum).sum := by
  induction l with
  | nil => simp
  | cons a l ih => simp [ih]

/-- **C37**: what the code accumulates is the gradient of the squared residual. -/
theorem gradient_spec {D : Dims} {g : Geom K} (hg : GeomOk D g) (data recon : Mem K) (r : K)
    {s n : Nat} (hs : s < D.dy) (hn : n < D.N) :
    gradient D g data recon r (n + s * D.N) = gradSpec D g data recon r s n := by
  rw [gradient_eq]
  refine (foldl_additive _ (fun t x => if x = n + s * D.N ∧ t.1 = s then
      2 * r * (r * lineSum D.N t.1 (g t.1 t.2.1 t.2.2) recon - data (D.data t.1 t.2.1 t.2.2)) *
        lenIn (g t.1 t.2.1 t.2.2) n else
      (gradTerm D g data recon r zeros t x)) (allRays D) ?_ zeros (n + s * D.N)).trans ?_
  · intro m t x ht
    have hb := mem_allRays.mp ht
    have hok := hg t.1 hb.1 t.2.1 hb.2.1 t.2.2 hb.2.2
    by_cases hx : x = n + s * D.N ∧ t.1 = s
    · rw [if_pos hx]
      obtain ⟨rfl, hts⟩ := hx
      unfold gradTerm
      by_cases h : sumDist2 (g t.1 t.2.1 t.2.2) ≠ 0
      · rw [if_pos h, spread_pixel (fun e he => (hok e he).1) hn, if_pos hts.symm]
        ring
      · rw [if_neg h]
        have : lenIn (g t.1 t.2.1 t.2.2) n = 0 := by
          by_contra hne
          exact h (sumDist2_ne_of_lenIn hne)
        rw [this]; ring
    · rw [if_neg hx]
      unfold gradTerm
      split
      · rw [spread_apply, spread_apply]; simp [zeros]
      · simp [zeros]
  · have h1 : ∀ t ∈ allRays D, (if n + s * D.N = n + s * D.N ∧ t.1 = s then
      2 * r * (r * lineSum D.N t.1 (g t.1 t.2.1 t.2.2) recon - data (D.data t.1 t.2.1 t.2.2)) *
        lenIn (g t.1 t.2.1 t.2.2) n else
      (gradTerm D g data recon r zeros t (n + s * D.N))) =
      if t.1 = s then 2 * r * (r * lineSum D.N s (g s t.2.1 t.2.2) recon
        - data (D.data s t.2.1 t.2.2)) * lenIn (g s t.2.1 t.2.2) n else 0 := by
      intro t ht
      have hb := mem_allRays.mp ht
      have hok := hg t.1 hb.1 t.2.1 hb.2.1 t.2.2 hb.2.2
      by_cases hts : t.1 = s
      · rw [if_pos ⟨rfl, hts⟩, if_pos hts, hts]
      · rw [if_neg (fun h => hts h.2), if_neg hts]
        unfold gradTerm
        split
        · rw [spread_pixel (fun e he => (hok e he).1) hn, if_neg (fun h => hts h.symm)]
          simp [zeros]
        · rfl
    rw [List.map_congr_left h1]
    unfold allRays gradSpec
    simp only [zeros, zero_add, List.map_flatMap, list_sum_flatMap, List.map_map,
      Function.comp_def, sum_range_list]
    rw [Finset.sum_eq_single s]
    · simp
    · intro b _ hb
      simp [hb]
    · intro h; exact absurd (Finset.mem_range.mpr hs) h

/-! ## Fixed points -/

theorem pix_div {N n s : Nat} (hn : n < N) : (n + s * N) / N = s := by
  rw [Nat.mul_comm, Nat.add_mul_div_left _ _ (by omega), Nat.div_eq_of_lt hn, Nat.zero_add]

theorem forPix_pixel {D : Dims} {ngx ngy : Nat} (hN : D.N = ngx * ngy) (f : Nat → Nat → K → K)
    (m : Mem K) {s n : Nat} (hs : s < D.dy) (hn : n < D.N) :
    forPix D.dy ngx ngy f m (n + s * D.N) = f s (n + s * D.N) (m (n + s * D.N)) := by
  rw [forPix_apply, ← hN, if_pos (pix_lt hn hs), pix_div hn]

/-- The image after division by the scaling constant solves the scaled equations. -/
theorem gradient_exact {D : Dims} {g : Geom K} (hg : GeomOk D g) {data recon rc : Mem K} {r : K}
    (hr : r ≠ 0) (hc : Consistent D g data recon)
    (hrc : ∀ s < D.dy, ∀ n < D.N, rc (n + s * D.N) = recon (n + s * D.N) / r)
    {s n : Nat} (hs : s < D.dy) (hn : n < D.N) : gradient D g data rc r (n + s * D.N) = 0 := by
  rw [gradient_spec hg data rc r hs hn]
  apply Finset.sum_eq_zero
  intro p hp
  apply Finset.sum_eq_zero
  intro d hd
  rw [Finset.mem_range] at hp hd
  have hok := hg s hs p hp d hd
  by_cases h : sumDist2 (g s p d) = 0
  · have : lenIn (g s p d) n = 0 := by
      by_contra hne
      exact sumDist2_ne_of_lenIn hne h
    rw [this, mul_zero]
  · have e : r * lineSum D.N s (g s p d) rc = lineSum D.N s (g s p d) recon := by
      unfold lineSum
      rw [← List.sum_map_mul_left]
      congr 1
      apply List.map_congr_left
      intro e he
      rw [hrc s hs e.1 (hok e he).1]
      field_simp
    rw [e, hc s hs p hp d hd h, sub_self, mul_zero, zero_mul]

theorem gradRun_exact_fixed {extra : Mem K → Mem K → Mem K} {D : Dims} {ngx ngy : Nat}
    (hN : D.N = ngx * ngy) {g : Geom K} (hg : GeomOk D g) {data recon : Mem K} {r reg0 : K}
    (hr : r ≠ 0) (hreg : 0 ≤ reg0) (hc : Consistent D g data recon)
    (hex : ∀ rc gr : Mem K, (∀ s < D.dy, ∀ n < D.N, rc (n + s * D.N) = recon (n + s * D.N) / r) →
      ∀ s < D.dy, ∀ n < D.N, extra rc gr (n + s * D.N) = gr (n + s * D.N)) (num_iter : Nat) :
    ∃ r', gradRun extra D ngx ngy g data num_iter r reg0 recon = some r' ∧ SameImage D r' recon := by
  unfold gradRun
  split
  · exact ⟨recon, rfl, fun _ _ _ _ => rfl⟩
  · have key : ∀ (n i : Nat) (st : GradSt K),
        (∀ s < D.dy, ∀ n < D.N, st.recon (n + s * D.N) = recon (n + s * D.N) / r) →
        ∃ st', gradIters extra D ngx ngy g data r reg0 n i st = some st' ∧
          ∀ s < D.dy, ∀ n < D.N, st'.recon (n + s * D.N) = recon (n + s * D.N) / r := by
      intro n
      induction n with
      | zero => intro i st h; exact ⟨st, rfl, h⟩
      | succ n ih =>
        intro i st h
        have hstep : ∀ gr gr0 rc rc0 s, gradStep ngx ngy reg0 i gr gr0 rc rc0 s = some reg0 := by
          intro gr gr0 rc rc0 s
          unfold gradStep
          rw [if_neg (not_lt.mpr hreg)]
        unfold gradIters gradIter
        simp only [hstep, Option.isSome_some, Option.getD_some, implies_true, if_true,
          Option.bind_some]
        apply ih
        intro s hs n hn
        simp only
        rw [forPix_pixel hN _ _ hs hn, hex _ _ h s hs n hn, gradient_exact hg hr hc h hs hn,
          mul_zero, sub_zero, h s hs n hn]
    obtain ⟨st', h1, h2⟩ := key num_iter 0
      ⟨forPix D.dy ngx ngy (fun _ _ v => v / r) recon, zeros,
        forPix D.dy ngx ngy (fun _ _ v => v / r) recon⟩ (by
        intro s hs n hn
        simp only
        rw [forPix_pixel hN _ _ hs hn])
    rw [h1]
    refine ⟨_, rfl, ?_⟩
    intro s hs n hn
    simp only
    rw [forPix_pixel hN _ _ hs hn, h2 s hs n hn, div_mul_cancel₀ _ hr]

/-- **C37**: `grad` with a fixed step returns an image whose projection equals the data, for any
number of iterations. -/
theorem grad_exact_fixed {D : Dims} {ngx ngy : Nat} (hN : D.N = ngx * ngy) {g : Geom K}
    (hg : GeomOk D g) {data recon : Mem K} {r reg0 : K} (hr : r ≠ 0) (hreg : 0 ≤ reg0)
    (hc : Consistent D g data recon) (num_iter : Nat) :
    ∃ r', grad D ngx ngy g data num_iter r reg0 recon = some r' ∧ SameImage D r' recon :=
  gradRun_exact_fixed hN hg hr hreg hc (fun _ _ _ _ _ _ _ => rfl) num_iter

/-- **C37** (`tikh`, what holds): the image is returned unchanged when the regulariser data are
the solution *divided by the internal scaling constant*, or the regularisation is zero.  Missing:
the case of the statement, where the regulariser data are the solution itself, is false
(`tikh_solution_not_fixed`). -/
theorem tikh_exact_fixed_partial {D : Dims} {ngx ngy : Nat} (hN : D.N = ngx * ngy) {g : Geom K}
    (hg : GeomOk D g) {data recon regData : Mem K} {r reg0 reg1 : K} (hr : r ≠ 0) (hreg : 0 ≤ reg0)
    (hc : Consistent D g data recon)
    (hd : reg1 = 0 ∨ ∀ s < D.dy, ∀ n < D.N, regData (n + s * D.N) = recon (n + s * D.N) / r)
    (num_iter : Nat) :
    ∃ r', tikh D ngx ngy g data num_iter r reg0 reg1 regData recon = some r' ∧
      SameImage D r' recon := by
  refine gradRun_exact_fixed hN hg hr hreg hc ?_ num_iter
  intro rc gr hrc s hs n hn
  rw [forPix_pixel hN _ _ hs hn]
  rcases hd with rfl | hd
  · ring
  · rw [hrc s hs n hn, hd s hs n hn]; ring

/-- **C37** (automatic step): started at an exact solution, the second iteration of `grad` with a
negative step parameter computes `0 / 0` in every slice. -/
theorem grad_auto_step_undefined {D : Dims} {ngx ngy : Nat} (hN : D.N = ngx * ngy) {g : Geom K}
    (hg : GeomOk D g) {data recon : Mem K} {r reg0 : K} (hr : r ≠ 0) (hreg : reg0 < 0)
    (hne : ¬ (D.dy = 0 ∨ D.dt = 0 ∨ D.dx = 0)) (hc : Consistent D g data recon) {num_iter : Nat}
    (hn : 2 ≤ num_iter) : grad D ngx ngy g data num_iter r reg0 recon = none := by
  obtain ⟨k, rfl⟩ : ∃ k, num_iter = k + 2 := ⟨num_iter - 2, by omega⟩
  unfold grad gradRun
  rw [if_neg hne, Option.map_eq_none_iff]
  have h1 : ∀ s < D.dy, ∀ n < D.N, forPix D.dy ngx ngy (fun _ _ v => v / r) recon (n + s * D.N)
      = recon (n + s * D.N) / r := fun s hs n hn => by rw [forPix_pixel hN _ _ hs hn]
  generalize forPix D.dy ngx ngy (fun _ _ v => v / r) recon = rc at h1
  have hs0 : ∀ gr gr0 a b s, gradStep ngx ngy reg0 0 gr gr0 a b s = some (1 / 1000) := by
    intro gr gr0 a b s
    unfold gradStep
    rw [if_pos hreg, if_pos rfl]
  unfold gradIters
  have hg1 : gradIter (fun _ gr => gr) D ngx ngy g data r reg0 0 ⟨rc, zeros, rc⟩ =
      some ⟨forPix D.dy ngx ngy (fun s x v => v - 1 / 1000 * gradient D g data rc r x) rc,
        gradient D g data rc r, rc⟩ := by
    unfold gradIter
    simp only [hs0, Option.isSome_some, Option.getD_some, implies_true, if_true]
  rw [hg1, Option.bind_some]
  unfold gradIters
  have h2 : ∀ s < D.dy, ∀ n < D.N,
      forPix D.dy ngx ngy (fun s x v => v - 1 / 1000 * gradient D g data rc r x) rc (n + s * D.N)
      = recon (n + s * D.N) / r := by
    intro s hs n hn
    rw [forPix_pixel hN _ _ hs hn, gradient_exact hg hr hc h1 hs hn, h1 s hs n hn]
    ring
  generalize forPix D.dy ngx ngy (fun s x v => v - 1 / 1000 * gradient D g data rc r x) rc = rc2 at h2
  have hg2 : gradIter (fun _ gr => gr) D ngx ngy g data r reg0 (0 + 1)
      ⟨rc2, gradient D g data rc r, rc⟩ = none := by
    unfold gradIter
    simp only
    rw [if_neg]
    intro hall
    have hdy : 0 < D.dy := by
      rw [not_or] at hne; omega
    have := hall 0 hdy
    unfold gradStep at this
    rw [if_pos hreg, if_neg (by omega), if_pos] at this
    · cases this
    · rw [sumPix_eq, ← hN]
      apply Finset.sum_eq_zero
      intro n hn
      rw [gradient_exact hg hr hc h2 hdy (Finset.mem_range.mp hn),
        gradient_exact hg hr hc h1 hdy (Finset.mem_range.mp hn)]
      ring
  rw [hg2, Option.bind_none]

/-- **C37** The automatic step after the first iteration is that of Barzilai and Borwein: among all
steps it best explains the last change of the image by the change of the gradient. -/
theorem grad_bb_step {ngx ngy : Nat} {reg0 : K} (hreg : reg0 < 0) {i : Nat} (hi : i ≠ 0)
    {gr gr0 recon recon0 : Mem K} {s : Nat} {a : K}
    (h : gradStep ngx ngy reg0 i gr gr0 recon recon0 s = some a) (b : K) :
    ∑ n ∈ Finset.range (ngx * ngy), (recon (n + s * (ngx * ngy)) - recon0 (n + s * (ngx * ngy)) -
        a * (gr (n + s * (ngx * ngy)) - gr0 (n + s * (ngx * ngy)))) ^ 2 ≤
      ∑ n ∈ Finset.range (ngx * ngy), (recon (n + s * (ngx * ngy)) - recon0 (n + s * (ngx * ngy)) -
        b * (gr (n + s * (ngx * ngy)) - gr0 (n + s * (ngx * ngy)))) ^ 2 := by
  unfold gradStep at h
  rw [if_pos hreg, if_neg hi] at h
  split_ifs at h with h0
  injection h with h
  rw [sumPix_eq] at h0
  rw [sumPix_eq, sumPix_eq] at h
  set X : Nat → K := fun n => recon (n + s * (ngx * ngy)) - recon0 (n + s * (ngx * ngy)) with hX
  set G : Nat → K := fun n => gr (n + s * (ngx * ngy)) - gr0 (n + s * (ngx * ngy)) with hG
  have hGG : 0 ≤ ∑ n ∈ Finset.range (ngx * ngy), G n * G n :=
    Finset.sum_nonneg fun n _ => mul_self_nonneg _
  have hexp : ∀ c : K, ∑ n ∈ Finset.range (ngx * ngy), (X n - c * G n) ^ 2 =
      (∑ n ∈ Finset.range (ngx * ngy), X n * X n) - 2 * c * (∑ n ∈ Finset.range (ngx * ngy), X n * G n)
        + c ^ 2 * ∑ n ∈ Finset.range (ngx * ngy), G n * G n := by
    intro c
    rw [Finset.mul_sum, Finset.mul_sum, ← Finset.sum_sub_distrib, ← Finset.sum_add_distrib]
    exact Finset.sum_congr rfl fun n _ => by ring
  change ∑ n ∈ Finset.range (ngx * ngy), (X n - a * G n) ^ 2
    ≤ ∑ n ∈ Finset.range (ngx * ngy), (X n - b * G n) ^ 2
  rw [hexp a, hexp b]
  change ¬ (∑ n ∈ Finset.range (ngx * ngy), G n * G n = 0) at h0
  change (∑ n ∈ Finset.range (ngx * ngy), X n * G n) / (∑ n ∈ Finset.range (ngx * ngy), G n * G n) = a at h
  rw [div_eq_iff h0] at h
  rw [h]
  have := mul_nonneg (sq_nonneg (b - a)) hGG
  nlinarith

/-- The automatic step exists as soon as the gradient of the slice has changed. -/
theorem grad_bb_defined {ngx ngy : Nat} {reg0 : K} (hreg : reg0 < 0) {i : Nat} (hi : i ≠ 0)
    {gr gr0 recon recon0 : Mem K} {s n : Nat} (hn : n < ngx * ngy)
    (hne : gr (n + s * (ngx * ngy)) ≠ gr0 (n + s * (ngx * ngy))) :
    ∃ a, gradStep ngx ngy reg0 i gr gr0 recon recon0 s = some a := by
  unfold gradStep
  rw [if_pos hreg, if_neg hi, if_neg]
  · exact ⟨_, rfl⟩
  · rw [sumPix_eq]
    intro h0
    have := (Finset.sum_eq_zero_iff_of_nonneg fun n _ => mul_self_nonneg _).1 h0 n (Finset.mem_range.2 hn)
    exact hne (sub_eq_zero.1 (mul_self_eq_zero.1 this))

/-- A slice of one pixel: gradient from 3 to 1, image from 0 to 1, step `-1/2`. -/
example : gradStep (K := ℚ) 1 1 (-1) 1 (fun _ => 1) (fun _ => 3) (fun _ => 1) (fun _ => 0) 0
    = some (-1 / 2) := by decide +kernel

/-- One iteration moves every pixel against the gradient by the step of its slice. -/
theorem grad_iteration {extra : Mem K → Mem K → Mem K} {D : Dims} {ngx ngy : Nat}
    (hN : D.N = ngx * ngy) {g : Geom K} {data : Mem K} {r reg0 : K} {i : Nat} {st st' : GradSt K}
    (h : gradIter extra D ngx ngy g data r reg0 i st = some st') :
    ∀ s < D.dy, ∃ a, gradStep ngx ngy reg0 i (extra st.recon (gradient D g data st.recon r)) st.gr0
        st.recon st.recon0 s = some a ∧
      ∀ n < D.N, st'.recon (n + s * D.N) = st.recon (n + s * D.N) -
        a * extra st.recon (gradient D g data st.recon r) (n + s * D.N) := by
  intro s hs
  unfold gradIter at h
  simp only at h
  split_ifs at h with hall
  injection h with h
  obtain ⟨a, ha⟩ := Option.isSome_iff_exists.1 (hall s hs)
  refine ⟨a, ha, fun n hn => ?_⟩
  rw [← h]
  simp only
  rw [forPix_pixel hN _ _ hs hn, ha, Option.getD_some]

/-- One `grad` iteration in terms of the image: a step against the gradient of the squared
residual, scaled by `r²`. -/
theorem grad_one_iteration {D : Dims} {ngx ngy : Nat} (hN : D.N = ngx * ngy) {g : Geom K}
    (hg : GeomOk D g) {data recon : Mem K} {r reg0 : K} (hr : r ≠ 0) (hreg : 0 ≤ reg0)
    (hne : ¬ (D.dy = 0 ∨ D.dt = 0 ∨ D.dx = 0)) :
    ∃ r', grad D ngx ngy g data 1 r reg0 recon = some r' ∧
      ∀ s < D.dy, ∀ n < D.N, r' (n + s * D.N) = recon (n + s * D.N) - 2 * reg0 * r ^ 2 *
        ∑ p ∈ Finset.range D.dt, ∑ d ∈ Finset.range D.dx,
          (lineSum D.N s (g s p d) recon - data (D.data s p d)) * lenIn (g s p d) n := by
  unfold grad gradRun
  rw [if_neg hne]
  have h1 : ∀ s < D.dy, ∀ n < D.N, forPix D.dy ngx ngy (fun _ _ v => v / r) recon (n + s * D.N)
      = recon (n + s * D.N) / r := fun s hs n hn => by rw [forPix_pixel hN _ _ hs hn]
  generalize forPix D.dy ngx ngy (fun _ _ v => v / r) recon = rc at h1
  have hstep : ∀ gr gr0 rc rc0 s, gradStep ngx ngy reg0 0 gr gr0 rc rc0 s = some reg0 := by
    intro gr gr0 rc rc0 s
    unfold gradStep
    rw [if_neg (not_lt.mpr hreg)]
  unfold gradIters gradIter
  simp only [hstep, Option.isSome_some, Option.getD_some, implies_true, if_true, Option.bind_some,
    gradIters, Option.map_some]
  refine ⟨_, rfl, ?_⟩
  intro s hs n hn
  rw [forPix_pixel hN _ _ hs hn, forPix_pixel hN _ _ hs hn, h1 s hs n hn,
    gradient_spec hg data rc r hs hn, sub_mul, div_mul_cancel₀ _ hr]
  congr 1
  unfold gradSpec
  rw [Finset.mul_sum, Finset.sum_mul, Finset.mul_sum]
  apply Finset.sum_congr rfl
  intro p hp
  rw [Finset.mul_sum, Finset.sum_mul, Finset.mul_sum]
  apply Finset.sum_congr rfl
  intro d hd
  rw [Finset.mem_range] at hp hd
  have hok := hg s hs p hp d hd
  have e : r * lineSum D.N s (g s p d) rc = lineSum D.N s (g s p d) recon := by
    unfold lineSum
    rw [← List.sum_map_mul_left]
    congr 1
    apply List.map_congr_left
    intro e he
    rw [h1 s hs e.1 (hok e he).1]
    field_simp
  rw [e]
  ring

/-- The scaling constant of the code is positive for every call that does not return at once. -/
theorem gradScale_pos {D : Dims} (h : ¬ (D.dy = 0 ∨ D.dt = 0 ∨ D.dx = 0)) : 0 < gradScale D := by
  rw [not_or, not_or] at h
  unfold gradScale
  have h1 : (0 : ℝ) < D.dt := by exact_mod_cast Nat.pos_of_ne_zero h.2.1
  have h2 : (0 : ℝ) < D.dx := by exact_mod_cast Nat.pos_of_ne_zero h.2.2
  positivity

section Examples

/-- The hypotheses of `grad_exact_fixed`: three pixels per slice in one row, two slices. -/
example : osD.N = 3 * 1 ∧ (1 / 2 : ℚ) ≠ 0 ∧ (0 : ℚ) ≤ 1 / 10 := by decide +kernel
/-- `grad` changes an inconsistent image. -/
example : (grad osD 3 1 osG osData 1 (1 / 2) (1 / 10) (fun _ => 1)).map (· 0) ≠ some 1 := by
  decide +kernel

/-- For eight rays the scaling constant is 1/2. -/
theorem gradScale_eight : gradScale ⟨1, 1, 8, 1⟩ = 1 / 2 := by
  unfold gradScale
  have : Real.sqrt ((8 : Nat) * (1 : Nat) / 2 : ℝ) = 2 := by
    rw [show ((8 : Nat) * (1 : Nat) / 2 : ℝ) = 2 ^ 2 by norm_num]
    exact Real.sqrt_sq (by norm_num)
  simp only [this]

/-- **C37** (refutation for `tikh`): one pixel with value 1 seen by the first of eight rays
(scaling constant `1 / 2`, `gradScale_eight`), exact data, the solution as regulariser data, step
`1 / 10`, regularisation 1: the pixel becomes `9 / 10`. -/
theorem tikh_solution_not_fixed :
    (tikh (K := ℚ) ⟨1, 1, 8, 1⟩ 1 1 (fun _ _ d => if d = 0 then [(0, 1)] else [])
      (fun i => if i = 0 then 1 else 0) 1 (1 / 2) (1 / 10) 1 (fun _ => 1) (fun _ => 1)).map (· 0)
      = some (9 / 10) := by
  decide +kernel

example : Consistent (K := ℚ) ⟨1, 1, 8, 1⟩ (fun _ _ d => if d = 0 then [(0, 1)] else [])
    (fun i => if i = 0 then 1 else 0) (fun _ => 1) := by
  unfold Consistent; decide +kernel

end Examples

end Tomopy.Iter
