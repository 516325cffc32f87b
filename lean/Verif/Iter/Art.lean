import Verif.Iter.Osem
import Mathlib.Tactic.LinearCombination

/-!
# ART (C35)
-/

set_option linter.unusedSectionVars false

namespace Tomopy.Iter

variable {K : Type*} [Field K] [LinearOrder K] [IsStrictOrderedRing K]

/-! ## Specifications -/

/-- All rays of the geometry pass each pixel at most once. -/
def GeomOnce (D : Dims) (g : Geom K) : Prop :=
  ∀ s < D.dy, ∀ p < D.dt, ∀ d < D.dx, Once (g s p d)

/-- Squared Euclidean distance of slice `s` of two images. -/
def dist2 (D : Dims) (s : Nat) (r z : Mem K) : K :=
  ∑ n ∈ Finset.range D.N, (r (n + s * D.N) - z (n + s * D.N)) ^ 2

/-- The Kaczmarz step: projection of slice `s` onto the hyperplane of ray `(p, d)`. -/
def kacz (D : Dims) (g : Geom K) (data : Mem K) (r : Mem K) (t : Nat × Nat × Nat) : Mem K :=
  if sumDist2 (g 0 t.1 t.2.1) ≠ 0 then
    spread D t.2.2 (g 0 t.1 t.2.1)
      ((data (D.data t.2.2 t.1 t.2.1) - lineSum D.N t.2.2 (g 0 t.1 t.2.1) r)
        / sumDist2 (g 0 t.1 t.2.1)) r
  else r

/-- The order in which `art` visits rays and slices. -/
def artOrder (D : Dims) : List (Nat × Nat × Nat) :=
  (List.range D.dt).flatMap fun p => (List.range D.dx).flatMap fun d =>
    (List.range D.dy).map fun s => (p, d, s)

/-! ## The loop -/

theorem mem_artOrder {D : Dims} {t : Nat × Nat × Nat} :
    t ∈ artOrder D ↔ t.1 < D.dt ∧ t.2.1 < D.dx ∧ t.2.2 < D.dy := by
  obtain ⟨p, d, s⟩ := t
  simp only [artOrder, List.mem_flatMap, List.mem_range, List.mem_map, Prod.mk.injEq]
  constructor
  · rintro ⟨p', hp, d', hd, s', hs, rfl, rfl, rfl⟩; exact ⟨hp, hd, hs⟩
  · rintro ⟨hp, hd, hs⟩; exact ⟨p, hp, d, hd, s, hs, rfl, rfl, rfl⟩

theorem artOrder_nodup (D : Dims) : (artOrder D).Nodup := by
  unfold artOrder
  rw [List.nodup_flatMap]
  refine ⟨fun p _ => ?_, List.Pairwise.imp ?_ (List.nodup_range (n := D.dt))⟩
  · rw [List.nodup_flatMap]
    refine ⟨fun d _ => ?_, List.Pairwise.imp ?_ (List.nodup_range (n := D.dx))⟩
    · exact (List.nodup_map_iff fun a b h => by simpa using h).mpr List.nodup_range
    · intro a b hab x hx hy
      obtain ⟨_, _, rfl⟩ := List.mem_map.mp hx
      obtain ⟨_, _, h⟩ := List.mem_map.mp hy
      simp only [Prod.mk.injEq] at h
      exact hab h.2.1.symm
  · intro a b hab x hx hy
    obtain ⟨_, _, hx⟩ := List.mem_flatMap.mp hx
    obtain ⟨_, _, rfl⟩ := List.mem_map.mp hx
    obtain ⟨_, _, hy⟩ := List.mem_flatMap.mp hy
    obtain ⟨_, _, h⟩ := List.mem_map.mp hy
    simp only [Prod.mk.injEq] at h
    exact hab h.1.symm

theorem artIter_fold (D : Dims) (g : Geom K) (data recon : Mem K) :
    artIter D g data recon =
      ((artOrder D).foldl (fun st t => artStep D g data st t.1 t.2.1 t.2.2) (recon, zeros)).1 := by
  unfold artIter artOrder
  simp only [List.foldl_flatMap, List.foldl_map]

/-- Every ray is visited once per iteration with a fresh `simdata` entry, so an iteration is a
sequence of Kaczmarz steps. -/
theorem artIter_eq (D : Dims) (g : Geom K) (data recon : Mem K) :
    artIter D g data recon = (artOrder D).foldl (kacz D g data) recon := by
  rw [artIter_fold]
  have key : ∀ (l : List (Nat × Nat × Nat)) (r sd : Mem K), l.Nodup →
      (∀ t ∈ l, t.1 < D.dt ∧ t.2.1 < D.dx ∧ t.2.2 < D.dy) →
      (∀ t ∈ l, sd (D.data t.2.2 t.1 t.2.1) = 0) →
      (l.foldl (fun st t => artStep D g data st t.1 t.2.1 t.2.2) (r, sd)).1 =
        l.foldl (kacz D g data) r := by
    intro l
    induction l with
    | nil => intro r sd _ _ _; rfl
    | cons t l ih =>
      intro r sd hnd hb h0
      rw [List.nodup_cons] at hnd
      simp only [List.foldl_cons]
      have ht := hb t List.mem_cons_self
      have hs : ∀ t' ∈ l, D.data t.2.2 t.1 t.2.1 ≠ D.data t'.2.2 t'.1 t'.2.1 := by
        intro t' ht' e
        have hb' := hb t' (List.mem_cons_of_mem _ ht')
        obtain ⟨e1, e2, e3⟩ := data_inj ht.1 hb'.1 ht.2.1 hb'.2.1 e
        exact hnd.1 (by
          have : t = t' := Prod.ext e2 (Prod.ext e3 e1)
          rw [this]; exact ht')
      have hz := h0 t List.mem_cons_self
      have hrest := fun t' ht' => hb t' (List.mem_cons_of_mem _ ht')
      by_cases hc : sumDist2 (g 0 t.1 t.2.1) ≠ 0
      · have e : artStep D g data (r, sd) t.1 t.2.1 t.2.2 =
            (kacz D g data r t, calcSimdata D t.2.2 t.1 t.2.1 (g 0 t.1 t.2.1) r sd) := by
          unfold artStep kacz
          rw [if_pos hc, if_pos hc, calcSimdata_apply, if_pos rfl]
          simp only [hz, zero_add]
        rw [e]
        refine ih _ _ hnd.2 hrest ?_
        intro t' ht'
        rw [calcSimdata_apply, if_neg (hs t' ht'), add_zero]
        exact h0 t' (List.mem_cons_of_mem _ ht')
      · have e : artStep D g data (r, sd) t.1 t.2.1 t.2.2 = (kacz D g data r t, sd) := by
          unfold artStep kacz
          rw [if_neg hc, if_neg hc]
        rw [e]
        exact ih _ _ hnd.2 hrest (fun t' ht' => h0 t' (List.mem_cons_of_mem _ ht'))
  exact key _ _ _ (artOrder_nodup D) (fun t ht => mem_artOrder.mp ht) (fun _ _ => rfl)

/-- The general induction rule for `art`. -/
theorem art_inv {D : Dims} {g : Geom K} {data : Mem K} {num_iter : Nat} (Inv : Mem K → Prop)
    (hstep : ∀ r t, t.1 < D.dt → t.2.1 < D.dx → t.2.2 < D.dy → Inv r → Inv (kacz D g data r t))
    {recon : Mem K} (h0 : Inv recon) : Inv (art D g data num_iter recon) := by
  unfold art
  split
  · exact h0
  · induction num_iter generalizing recon with
    | zero => exact h0
    | succ k ih =>
      rw [Function.iterate_succ_apply]
      apply ih
      rw [artIter_eq]
      have : ∀ (l : List (Nat × Nat × Nat)) (r : Mem K),
          (∀ t ∈ l, t.1 < D.dt ∧ t.2.1 < D.dx ∧ t.2.2 < D.dy) → Inv r →
          Inv (l.foldl (kacz D g data) r) := by
        intro l
        induction l with
        | nil => intro r _ h; exact h
        | cons t l ih =>
          intro r hb h
          have ht := hb t List.mem_cons_self
          exact ih _ (fun t' ht' => hb t' (List.mem_cons_of_mem _ ht'))
            (hstep r t ht.1 ht.2.1 ht.2.2 h)
      exact this _ _ (fun t ht => mem_artOrder.mp ht) h0

/-! ## One step -/

theorem kacz_pixel {D : Dims} {g : Geom K} {data r : Mem K} {t : Nat × Nat × Nat}
    (hok : ∀ e ∈ g 0 t.1 t.2.1, e.1 < D.N) {s n : Nat} (hn : n < D.N) :
    kacz D g data r t (n + s * D.N) = r (n + s * D.N) +
      if s = t.2.2 ∧ sumDist2 (g 0 t.1 t.2.1) ≠ 0 then
        (data (D.data t.2.2 t.1 t.2.1) - lineSum D.N t.2.2 (g 0 t.1 t.2.1) r)
          / sumDist2 (g 0 t.1 t.2.1) * lenIn (g 0 t.1 t.2.1) n
      else 0 := by
  unfold kacz
  by_cases hc : sumDist2 (g 0 t.1 t.2.1) ≠ 0
  · rw [if_pos hc, spread_pixel hok hn]
    by_cases hs : s = t.2.2
    · rw [if_pos hs, if_pos ⟨hs, hc⟩]
    · rw [if_neg hs, if_neg (fun h => hs h.1)]
  · rw [if_neg hc, if_neg (fun h => hc h.2), add_zero]

theorem sum_lenIn_sq {D : Dims} {ray : Segs K} (hok : ∀ e ∈ ray, e.1 < D.N) (ho : Once ray) :
    ∑ n ∈ Finset.range D.N, lenIn ray n * lenIn ray n = sumDist2 ray := by
  have h1 := lineSum_eq_sum_lenIn (N := D.N) (s := 0) hok (fun n => lenIn ray n)
  have h2 := lineSum_lenIn ho D.N 0 (fun n => lenIn ray n) (fun e _ => by simp)
  simp only [Nat.zero_mul, Nat.add_zero] at h1
  rw [← h1, h2]

/-- **C35** (one ray): after the step for ray `(p, d)` of slice `s` the image re-projects to the
measured value along that ray. -/
theorem kacz_hits {D : Dims} {g : Geom K} {data r : Mem K} {t : Nat × Nat × Nat}
    (hok : ∀ e ∈ g 0 t.1 t.2.1, e.1 < D.N) (ho : Once (g 0 t.1 t.2.1))
    (hhit : sumDist2 (g 0 t.1 t.2.1) ≠ 0) :
    lineSum D.N t.2.2 (g 0 t.1 t.2.1) (kacz D g data r t) = data (D.data t.2.2 t.1 t.2.1) := by
  rw [lineSum_eq_sum_lenIn hok]
  have : ∀ n ∈ Finset.range D.N, kacz D g data r t (n + t.2.2 * D.N) * lenIn (g 0 t.1 t.2.1) n =
      r (n + t.2.2 * D.N) * lenIn (g 0 t.1 t.2.1) n +
      (data (D.data t.2.2 t.1 t.2.1) - lineSum D.N t.2.2 (g 0 t.1 t.2.1) r)
          / sumDist2 (g 0 t.1 t.2.1) * (lenIn (g 0 t.1 t.2.1) n * lenIn (g 0 t.1 t.2.1) n) := by
    intro n hn
    rw [kacz_pixel hok (Finset.mem_range.mp hn), if_pos ⟨rfl, hhit⟩]
    ring
  rw [Finset.sum_congr rfl this, Finset.sum_add_distrib, ← Finset.mul_sum, sum_lenIn_sq hok ho,
    ← lineSum_eq_sum_lenIn hok, div_mul_cancel₀ _ hhit]
  ring

/-- One step moves towards every image that meets the measured value of the ray, by exactly the
squared length of the step. -/
theorem kacz_dist {D : Dims} {g : Geom K} {data r z : Mem K} {t : Nat × Nat × Nat}
    (hok : ∀ e ∈ g 0 t.1 t.2.1, e.1 < D.N) (ho : Once (g 0 t.1 t.2.1))
    (hz : sumDist2 (g 0 t.1 t.2.1) ≠ 0 →
      data (D.data t.2.2 t.1 t.2.1) = lineSum D.N t.2.2 (g 0 t.1 t.2.1) z) (s : Nat) :
    dist2 D s (kacz D g data r t) z ≤ dist2 D s r z := by
  unfold dist2
  by_cases hc : s = t.2.2 ∧ sumDist2 (g 0 t.1 t.2.1) ≠ 0
  · obtain ⟨hs, hc⟩ := hc
    subst hs
    obtain ⟨ray, hray⟩ : ∃ ray, ray = g 0 t.1 t.2.1 := ⟨_, rfl⟩
    rw [← hray] at hok ho hz hc
    obtain ⟨v, hv⟩ : ∃ v, v = (data (D.data t.2.2 t.1 t.2.1) - lineSum D.N t.2.2 ray r)
          / sumDist2 ray := ⟨_, rfl⟩
    have hv' : v * sumDist2 ray = lineSum D.N t.2.2 ray z - lineSum D.N t.2.2 ray r := by
      rw [hv, div_mul_cancel₀ _ hc, hz hc]
    have e : ∀ n ∈ Finset.range D.N,
        (kacz D g data r t (n + t.2.2 * D.N) - z (n + t.2.2 * D.N)) ^ 2 =
        (r (n + t.2.2 * D.N) - z (n + t.2.2 * D.N)) ^ 2 +
        (2 * v * (r (n + t.2.2 * D.N) * lenIn ray n) - 2 * v * (z (n + t.2.2 * D.N) * lenIn ray n)
          + v ^ 2 * (lenIn ray n * lenIn ray n)) := by
      intro n hn
      rw [kacz_pixel (hray ▸ hok) (Finset.mem_range.mp hn), if_pos ⟨rfl, hray ▸ hc⟩, ← hray, ← hv]
      ring
    rw [Finset.sum_congr rfl e, Finset.sum_add_distrib, Finset.sum_add_distrib,
      Finset.sum_sub_distrib, ← Finset.mul_sum, ← Finset.mul_sum, ← Finset.mul_sum,
      sum_lenIn_sq hok ho, ← lineSum_eq_sum_lenIn hok, ← lineSum_eq_sum_lenIn hok]
    have hnn : 0 ≤ v ^ 2 * sumDist2 ray := mul_nonneg (sq_nonneg v) (sumDist2_nonneg ray)
    have h2 : 2 * v * lineSum D.N t.2.2 ray r - 2 * v * lineSum D.N t.2.2 ray z
        = - 2 * (v ^ 2 * sumDist2 ray) := by
      linear_combination (2 * v) * hv'
    rw [h2]
    linarith
  · apply le_of_eq
    apply Finset.sum_congr rfl
    intro n hn
    rw [kacz_pixel hok (Finset.mem_range.mp hn), if_neg hc, add_zero]

/-! ## C35 -/

/-- **C35**: after any positive number of iterations the image re-projects, in every slice, to
the measured values along the last ray. -/
theorem art_last_ray {D : Dims} {g : Geom K} {data : Mem K} {num_iter : Nat} (hni : 0 < num_iter)
    (hg : GeomOk D g) (hone : GeomOnce D g) (hne : ¬ (D.dy = 0 ∨ D.dt = 0 ∨ D.dx = 0))
    (hhit : sumDist2 (g 0 (D.dt - 1) (D.dx - 1)) ≠ 0) (recon : Mem K) {s : Nat} (hs : s < D.dy) :
    lineSum D.N s (g 0 (D.dt - 1) (D.dx - 1)) (art D g data num_iter recon) =
      data (D.data s (D.dt - 1) (D.dx - 1)) := by
  obtain ⟨k, rfl⟩ : ∃ k, num_iter = k + 1 := ⟨num_iter - 1, by omega⟩
  unfold art
  rw [if_neg hne, Function.iterate_succ_apply', artIter_eq]
  generalize (artIter D g data)^[k] recon = r
  rw [not_or, not_or] at hne
  obtain ⟨h1, h2, h3⟩ := hne
  have ho := hone 0 (by omega) (D.dt - 1) (by omega) (D.dx - 1) (by omega)
  have hok := hg 0 (by omega) (D.dt - 1) (by omega) (D.dx - 1) (by omega)
  -- the order ends with the slices of the last ray
  obtain ⟨l, hl⟩ : ∃ l, artOrder D = l ++ (List.range D.dy).map fun s => (D.dt - 1, D.dx - 1, s) := by
    unfold artOrder
    obtain ⟨a, ha⟩ : ∃ a, D.dt = a + 1 := ⟨D.dt - 1, by omega⟩
    obtain ⟨b, hb⟩ : ∃ b, D.dx = b + 1 := ⟨D.dx - 1, by omega⟩
    rw [ha, hb, List.range_succ, List.range_succ]
    simp only [List.flatMap_append, List.flatMap_cons, List.flatMap_nil, List.append_nil,
      Nat.add_sub_cancel]
    exact ⟨_, (List.append_assoc _ _ _).symm⟩
  rw [hl, List.foldl_append, List.foldl_map]
  generalize l.foldl (kacz D g data) r = r1
  have key : ∀ m, ∀ s < m, lineSum D.N s (g 0 (D.dt - 1) (D.dx - 1))
      ((List.range m).foldl (fun x y => kacz D g data x (D.dt - 1, D.dx - 1, y)) r1) =
      data (D.data s (D.dt - 1) (D.dx - 1)) := by
    intro m
    induction m with
    | zero => intro s hs; omega
    | succ m ih =>
      intro s hs
      rw [List.range_succ, List.foldl_append, List.foldl_cons, List.foldl_nil]
      by_cases e : s = m
      · subst e
        exact kacz_hits (t := (D.dt - 1, D.dx - 1, s)) (fun e he => (hok e he).1) ho hhit
      · rw [← ih s (by omega)]
        apply lineSum_congr
        intro e' he
        rw [kacz_pixel (fun e he => (hok e he).1) (hok e' he).1, if_neg, add_zero]
        exact fun h => e h.1
  exact key D.dy s hs

/-- **C35**: an image consistent with all data is left unchanged by any number of iterations. -/
theorem art_consistent_fixed {D : Dims} {g : Geom K} {data : Mem K} {num_iter : Nat}
    (hg : GeomOk D g) {recon : Mem K} (hc : Consistent D (fun _ => g 0) data recon) :
    SameImage D (art D g data num_iter recon) recon := by
  refine art_inv (fun r => SameImage D r recon) ?_ (fun _ _ _ _ => rfl)
  intro r t ht1 ht2 ht3 hr s hs n hn
  have hok : SegsOk D.N (g 0 t.1 t.2.1) := hg 0 (by omega) _ ht1 _ ht2
  rw [kacz_pixel (fun e he => (hok e he).1) hn, hr s hs n hn]
  split
  · rename_i h
    rw [hc t.2.2 ht3 t.1 ht1 t.2.1 ht2 h.2,
      lineSum_congr fun e he => (hr t.2.2 ht3 e.1 (hok e he).1)]
    simp
  · rw [add_zero]

/-- **C35**: the distance to any consistent image never increases from one number of iterations
to a larger one, in any slice. -/
theorem art_distance {D : Dims} {g : Geom K} {data : Mem K} {k l : Nat} (hkl : k ≤ l)
    (hg : GeomOk D g) (hone : GeomOnce D g) {z : Mem K}
    (hc : Consistent D (fun _ => g 0) data z) (recon : Mem K) (s : Nat) :
    dist2 D s (art D g data l recon) z ≤ dist2 D s (art D g data k recon) z := by
  have e : art D g data l recon = art D g data (l - k) (art D g data k recon) := by
    unfold art
    split
    · rfl
    · rw [← Function.iterate_add_apply, Nat.sub_add_cancel hkl]
  rw [e]
  refine art_inv (fun r => dist2 D s r z ≤ dist2 D s (art D g data k recon) z) ?_ (le_refl _)
  intro r t ht1 ht2 ht3 hr
  exact le_trans (kacz_dist (fun e he => (hg 0 (by omega) _ ht1 _ ht2 e he).1)
    (hone 0 (by omega) _ ht1 _ ht2) (fun h => hc t.2.2 ht3 t.1 ht1 t.2.1 ht2 h) s) hr

/-- **C35**: a pixel crossed by no ray keeps its value. -/
theorem art_unseen {D : Dims} {g : Geom K} {data : Mem K} {num_iter : Nat}
    (hg : GeomOk D g) (recon : Mem K) {s n : Nat} (hn : n < D.N)
    (hu : Unseen D (fun _ => g 0) s n) :
    art D g data num_iter recon (n + s * D.N) = recon (n + s * D.N) := by
  refine art_inv (fun r => r (n + s * D.N) = recon (n + s * D.N)) ?_ rfl
  intro r t ht1 ht2 ht3 hr
  rw [kacz_pixel (fun e he => (hg 0 (by omega) _ ht1 _ ht2 e he).1) hn, hr]
  have : lenIn (g 0 t.1 t.2.1) n = 0 := lenIn_of_unseen (g := fun _ => g 0) hu ht1 ht2
  rw [this]
  simp

section Examples

example : GeomOnce osD osG := by
  intro s _ p _ d _
  unfold osG Once
  split
  · split <;> simp
  · split <;> simp
/-- The hypotheses of `art_last_ray` on one projection of the example geometry. -/
example : sumDist2 (osG 0 (1 - 1) (2 - 1)) ≠ 0 := by decide +kernel
example : Consistent osD (fun _ => osG 0)
    (fun i => ([2, 1, 3 / 2, 0, 2, 1, 3 / 2, 0] : List ℚ).getD i 0) (fun _ => 1) := by
  unfold Consistent; decide +kernel
/-- `art` changes an inconsistent image. -/
example : art osD osG osData 1 (fun _ => 1) 0 ≠ 1 := by decide +kernel

/-- A ray that is charged twice for a pixel (as the tracer does within `1 / ipi_c` of the axes)
breaks the first statement: the re-projection overshoots. -/
theorem art_twice_overshoots :
    lineSum (K := ℚ) 1 0 [(0, 1), (0, 1)]
      (art ⟨1, 1, 1, 1⟩ (fun _ _ _ => [(0, 1), (0, 1)]) (fun _ => 2) 1 zeros) ≠ 2 := by
  decide +kernel

end Examples

end Tomopy.Iter
