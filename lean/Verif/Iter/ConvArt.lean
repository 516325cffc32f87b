import Verif.Iter.Art
import Mathlib.Analysis.SpecialFunctions.Pow.NNReal
import Mathlib.Topology.Sequences
import Mathlib.Topology.Order.MonotoneConvergence

/-!
# Convergence of ART (C138)
-/

set_option linter.unusedSectionVars false

namespace Tomopy.Iter

open Filter Topology

section Field

variable {K : Type*} [Field K] [LinearOrder K] [IsStrictOrderedRing K]

/-- **C138** (one step, Pythagoras): one step shortens the squared distance to every image that
meets the measured value of the ray by the squared length of the step. -/
theorem kacz_pythagoras {D : Dims} {g : Geom K} {data r z : Mem K} {t : Nat × Nat × Nat}
    (hok : ∀ e ∈ g 0 t.1 t.2.1, e.1 < D.N) (ho : Once (g 0 t.1 t.2.1))
    (hz : sumDist2 (g 0 t.1 t.2.1) ≠ 0 →
      data (D.data t.2.2 t.1 t.2.1) = lineSum D.N t.2.2 (g 0 t.1 t.2.1) z) (s : Nat) :
    dist2 D s r z = dist2 D s (kacz D g data r t) z + dist2 D s (kacz D g data r t) r := by
  unfold dist2
  by_cases hc : s = t.2.2 ∧ sumDist2 (g 0 t.1 t.2.1) ≠ 0
  · obtain ⟨hs, hc⟩ := hc
    subst hs
    obtain ⟨ray, hray⟩ : ∃ ray, ray = g 0 t.1 t.2.1 := ⟨_, rfl⟩
    rw [← hray] at hok ho hz hc
    obtain ⟨v, hv⟩ : ∃ v, v = (data (D.data t.2.2 t.1 t.2.1) - lineSum D.N t.2.2 ray r)
          / sumDist2 ray := ⟨_, rfl⟩
    have hv' : v * sumDist2 ray = lineSum D.N t.2.2 ray z - lineSum D.N t.2.2 ray r := by
      rw [hv, div_mul_cancel₀ _ hc, hz hc]
    rw [← Finset.sum_add_distrib, ← sub_eq_zero, ← Finset.sum_sub_distrib]
    have e : ∀ n ∈ Finset.range D.N,
        (r (n + t.2.2 * D.N) - z (n + t.2.2 * D.N)) ^ 2 -
        ((kacz D g data r t (n + t.2.2 * D.N) - z (n + t.2.2 * D.N)) ^ 2 +
          (kacz D g data r t (n + t.2.2 * D.N) - r (n + t.2.2 * D.N)) ^ 2) =
        2 * v * (z (n + t.2.2 * D.N) * lenIn ray n) - 2 * v * (r (n + t.2.2 * D.N) * lenIn ray n)
          - 2 * v ^ 2 * (lenIn ray n * lenIn ray n) := by
      intro n hn
      rw [kacz_pixel (hray ▸ hok) (Finset.mem_range.mp hn), if_pos ⟨rfl, hray ▸ hc⟩, ← hray, ← hv]
      ring
    rw [Finset.sum_congr rfl e, Finset.sum_sub_distrib,
      Finset.sum_sub_distrib, ← Finset.mul_sum, ← Finset.mul_sum, ← Finset.mul_sum,
      sum_lenIn_sq hok ho, ← lineSum_eq_sum_lenIn hok, ← lineSum_eq_sum_lenIn hok]
    linear_combination (-2 * v) * hv'
  · have e : ∀ n ∈ Finset.range D.N, kacz D g data r t (n + s * D.N) = r (n + s * D.N) := by
      intro n hn
      rw [kacz_pixel hok (Finset.mem_range.mp hn), if_neg hc, add_zero]
    have e2 : ∑ n ∈ Finset.range D.N, (kacz D g data r t (n + s * D.N) - r (n + s * D.N)) ^ 2 = 0 :=
      Finset.sum_eq_zero fun n hn => by rw [e n hn]; ring
    rw [e2, add_zero]
    exact Finset.sum_congr rfl fun n hn => by rw [e n hn]

theorem dist2_nonneg (D : Dims) (s : Nat) (r z : Mem K) : 0 ≤ dist2 D s r z :=
  Finset.sum_nonneg fun _ _ => sq_nonneg _

theorem sq_pixel_le (D : Dims) (s : Nat) (r z : Mem K) {n : Nat} (hn : n < D.N) :
    (r (n + s * D.N) - z (n + s * D.N)) ^ 2 ≤ dist2 D s r z :=
  Finset.single_le_sum (f := fun n => (r (n + s * D.N) - z (n + s * D.N)) ^ 2)
    (fun _ _ => sq_nonneg _) (Finset.mem_range.mpr hn)

/-- All changes made by `art` are orthogonal to the differences of images with the same line
integrals. -/
theorem art_orthogonal {D : Dims} {g : Geom K} {data : Mem K} (hg : GeomOk D g) {y z : Mem K}
    (hy : Consistent D (fun _ => g 0) data y) (hz : Consistent D (fun _ => g 0) data z)
    (recon : Mem K) (s k : Nat) :
    ∑ n ∈ Finset.range D.N, (art D g data k recon (n + s * D.N) - recon (n + s * D.N)) *
      (y (n + s * D.N) - z (n + s * D.N)) = 0 := by
  refine art_inv (fun r => ∑ n ∈ Finset.range D.N, (r (n + s * D.N) - recon (n + s * D.N)) *
      (y (n + s * D.N) - z (n + s * D.N)) = 0) ?_ (by simp)
  intro r t ht1 ht2 ht3 hr
  have hok : ∀ e ∈ g 0 t.1 t.2.1, e.1 < D.N := fun e he => (hg 0 (by omega) _ ht1 _ ht2 e he).1
  by_cases hc : s = t.2.2 ∧ sumDist2 (g 0 t.1 t.2.1) ≠ 0
  · have e : ∀ n ∈ Finset.range D.N, (kacz D g data r t (n + s * D.N) - recon (n + s * D.N)) *
      (y (n + s * D.N) - z (n + s * D.N)) = (r (n + s * D.N) - recon (n + s * D.N)) *
      (y (n + s * D.N) - z (n + s * D.N)) +
      (data (D.data t.2.2 t.1 t.2.1) - lineSum D.N t.2.2 (g 0 t.1 t.2.1) r)
          / sumDist2 (g 0 t.1 t.2.1) * (y (n + s * D.N) * lenIn (g 0 t.1 t.2.1) n
            - z (n + s * D.N) * lenIn (g 0 t.1 t.2.1) n) := by
      intro n hn
      rw [kacz_pixel hok (Finset.mem_range.mp hn), if_pos hc]
      ring
    rw [Finset.sum_congr rfl e, Finset.sum_add_distrib, hr, ← Finset.mul_sum,
      Finset.sum_sub_distrib, ← lineSum_eq_sum_lenIn hok, ← lineSum_eq_sum_lenIn hok, hc.1,
      ← hy t.2.2 ht3 t.1 ht1 t.2.1 ht2 hc.2, ← hz t.2.2 ht3 t.1 ht1 t.2.1 ht2 hc.2]
    simp
  · rw [← hr]
    refine Finset.sum_congr rfl fun n hn => ?_
    rw [kacz_pixel hok (Finset.mem_range.mp hn), if_neg hc, add_zero]

theorem art_succ {D : Dims} {g : Geom K} {data : Mem K}
    (hne : ¬ (D.dy = 0 ∨ D.dt = 0 ∨ D.dx = 0)) (k : Nat) (recon : Mem K) :
    art D g data (k + 1) recon = (artOrder D).foldl (kacz D g data) (art D g data k recon) := by
  unfold art
  rw [if_neg hne, if_neg hne, Function.iterate_succ_apply', artIter_eq]

theorem art_zero {D : Dims} {g : Geom K} {data : Mem K} (recon : Mem K) :
    art D g data 0 recon = recon := by
  unfold art
  split <;> rfl

end Field

section Real

variable {D : Dims} {g : Geom ℝ} {data : Mem ℝ}

theorem abs_pixel_le (s : Nat) (r z : Mem ℝ) {n : Nat} (hn : n < D.N) :
    |r (n + s * D.N) - z (n + s * D.N)| ≤ √(dist2 D s r z) := by
  rw [← Real.sqrt_sq_eq_abs]
  exact Real.sqrt_le_sqrt (sq_pixel_le D s r z hn)

/-- Several steps: the distance falls, and no pixel moves far if it falls little. -/
theorem steps_small (hg : GeomOk D g) (hone : GeomOnce D g) {z : Mem ℝ}
    (hc : Consistent D (fun _ => g 0) data z) (s : Nat) : ∀ (l : List (Nat × Nat × Nat)),
    (∀ t ∈ l, t.1 < D.dt ∧ t.2.1 < D.dx ∧ t.2.2 < D.dy) → ∀ r : Mem ℝ,
    dist2 D s (l.foldl (kacz D g data) r) z ≤ dist2 D s r z ∧
    ∀ n < D.N, |l.foldl (kacz D g data) r (n + s * D.N) - r (n + s * D.N)| ≤
      l.length * √(dist2 D s r z - dist2 D s (l.foldl (kacz D g data) r) z) := by
  intro l
  induction l with
  | nil => intro _ r; simp
  | cons t l ih =>
    intro hl r
    obtain ⟨ht1, ht2, ht3⟩ := hl t List.mem_cons_self
    have hp := kacz_pythagoras (data := data) (r := r) (z := z) (t := t)
      (fun e he => (hg 0 (by omega) _ ht1 _ ht2 e he).1) (hone 0 (by omega) _ ht1 _ ht2)
      (fun h => hc t.2.2 ht3 t.1 ht1 t.2.1 ht2 h) s
    obtain ⟨h1, h2⟩ := ih (fun t' ht' => hl t' (List.mem_cons_of_mem _ ht')) (kacz D g data r t)
    rw [List.foldl_cons]
    generalize hy : kacz D g data r t = y at *
    generalize l.foldl (kacz D g data) y = w at *
    have h0 := dist2_nonneg D s y r
    refine ⟨by linarith, fun n hn => ?_⟩
    have a1 := h2 n hn
    have a2 := abs_pixel_le s y r hn
    have a3 : √(dist2 D s y r) ≤ √(dist2 D s r z - dist2 D s w z) :=
      Real.sqrt_le_sqrt (by linarith)
    have a4 : √(dist2 D s y z - dist2 D s w z) ≤ √(dist2 D s r z - dist2 D s w z) :=
      Real.sqrt_le_sqrt (by linarith)
    have a5 : |w (n + s * D.N) - r (n + s * D.N)| ≤
        |w (n + s * D.N) - y (n + s * D.N)| + |y (n + s * D.N) - r (n + s * D.N)| :=
      abs_sub_le _ _ _
    have a6 : (l.length : ℝ) * √(dist2 D s y z - dist2 D s w z) ≤
        l.length * √(dist2 D s r z - dist2 D s w z) :=
      mul_le_mul_of_nonneg_left a4 (Nat.cast_nonneg _)
    rw [List.length_cons]
    push_cast
    linarith

/-- Line integrals depend continuously on the pixels. -/
theorem lineSum_tendsto {u : Nat → Mem ℝ} {a : Mem ℝ} {s : Nat} {ray : Segs ℝ}
    (h : ∀ e ∈ ray, Tendsto (fun k => u k (e.1 + s * D.N)) atTop (𝓝 (a (e.1 + s * D.N)))) :
    Tendsto (fun k => lineSum D.N s ray (u k)) atTop (𝓝 (lineSum D.N s ray a)) := by
  unfold lineSum
  induction ray with
  | nil => simp
  | cons e l ih =>
    simp only [List.map_cons, List.sum_cons]
    exact ((h e List.mem_cons_self).mul_const _).add
      (ih fun e' he' => h e' (List.mem_cons_of_mem _ he'))

theorem dist2_tendsto {u : Nat → Mem ℝ} {a b : Mem ℝ} {s : Nat}
    (h : ∀ n < D.N, Tendsto (fun k => u k (n + s * D.N)) atTop (𝓝 (a (n + s * D.N)))) :
    Tendsto (fun k => dist2 D s (u k) b) atTop (𝓝 (dist2 D s a b)) := by
  unfold dist2
  exact tendsto_finsetSum _ fun n hn => ((h n (Finset.mem_range.mp hn)).sub_const _).pow 2

/-- A limit of a part of the iterates is consistent with the data. -/
theorem art_cluster (hg : GeomOk D g) (hone : GeomOnce D g) {z : Mem ℝ}
    (hc : Consistent D (fun _ => g 0) data z) {recon : Mem ℝ} {φ : Nat → Nat} (hφ : StrictMono φ)
    {a : Mem ℝ} (ha : ∀ s < D.dy, ∀ n < D.N,
      Tendsto (fun k => art D g data (φ k) recon (n + s * D.N)) atTop (𝓝 (a (n + s * D.N)))) :
    Consistent D (fun _ => g 0) data a := by
  intro s hs p hp d hd hhit
  have hne : ¬ (D.dy = 0 ∨ D.dt = 0 ∨ D.dx = 0) := by omega
  have hb : ∀ t ∈ artOrder D, t.1 < D.dt ∧ t.2.1 < D.dx ∧ t.2.2 < D.dy := fun t ht =>
    mem_artOrder.mp ht
  obtain ⟨l1, l2, hl⟩ := List.append_of_mem (mem_artOrder.mpr ⟨hp, hd, hs⟩ : (p, d, s) ∈ artOrder D)
  have hok : ∀ e ∈ g 0 p d, e.1 < D.N := fun e he => (hg 0 (by omega) p hp d hd e he).1
  -- the image after the step for this ray
  obtain ⟨y, hy⟩ : ∃ y : Nat → Mem ℝ, ∀ k,
      y k = (l1 ++ [(p, d, s)]).foldl (kacz D g data) (art D g data k recon) := ⟨_, fun _ => rfl⟩
  have hline : ∀ k, lineSum D.N s (g 0 p d) (y k) = data (D.data s p d) := by
    intro k
    rw [hy, List.foldl_append, List.foldl_cons, List.foldl_nil]
    exact kacz_hits (t := (p, d, s)) hok (hone 0 (by omega) p hp d hd) hhit
  have hsplit : artOrder D = (l1 ++ [(p, d, s)]) ++ l2 := by rw [hl]; simp
  have hdiff : ∀ k, ∀ n < D.N, |y k (n + s * D.N) - art D g data k recon (n + s * D.N)| ≤
      (l1 ++ [(p, d, s)]).length * √(dist2 D s (art D g data k recon) z -
        dist2 D s (art D g data (k + 1) recon) z) := by
    intro k n hn
    have h1 := (steps_small hg hone hc s (l1 ++ [(p, d, s)])
      (fun t ht => hb t (by rw [hsplit]; exact List.mem_append_left _ ht))
      (art D g data k recon)).2 n hn
    have h2 := (steps_small hg hone hc s l2
      (fun t ht => hb t (by rw [hsplit]; exact List.mem_append_right _ ht)) (y k)).1
    have e : l2.foldl (kacz D g data) (y k) = art D g data (k + 1) recon := by
      rw [art_succ hne, hsplit, List.foldl_append, hy]
    rw [e] at h2
    rw [← hy] at h1
    exact h1.trans (mul_le_mul_of_nonneg_left (Real.sqrt_le_sqrt (by linarith)) (Nat.cast_nonneg _))
  -- the distances converge
  have hanti : Antitone fun k => dist2 D s (art D g data k recon) z :=
    fun k l hkl => art_distance hkl hg hone hc recon s
  have hlim := tendsto_atTop_ciInf hanti ⟨0, by rintro _ ⟨k, rfl⟩; exact dist2_nonneg _ _ _ _⟩
  have hdelta : Tendsto (fun k => dist2 D s (art D g data k recon) z -
        dist2 D s (art D g data (k + 1) recon) z) atTop (𝓝 0) := by
    have := hlim.sub ((tendsto_add_atTop_iff_nat 1).mpr hlim)
    simpa using this
  have hsmall : Tendsto (fun k => ((l1 ++ [(p, d, s)]).length : ℝ) *
      √(dist2 D s (art D g data k recon) z - dist2 D s (art D g data (k + 1) recon) z))
      atTop (𝓝 0) := by
    have := ((Real.continuous_sqrt.tendsto 0).comp hdelta).const_mul
      ((l1 ++ [(p, d, s)]).length : ℝ)
    simpa using this
  have hyl : ∀ n < D.N, Tendsto (fun k => y (φ k) (n + s * D.N)) atTop (𝓝 (a (n + s * D.N))) := by
    intro n hn
    have h1 : Tendsto (fun k => y k (n + s * D.N) - art D g data k recon (n + s * D.N)) atTop
        (𝓝 0) := squeeze_zero_norm (fun k => by rw [Real.norm_eq_abs]; exact hdiff k n hn) hsmall
    have h2 := (h1.comp hφ.tendsto_atTop).add (ha s hs n hn)
    simpa using h2
  have h3 := lineSum_tendsto (D := D) (u := fun k => y (φ k)) (a := a) (s := s) (ray := g 0 p d)
    (fun e he => hyl e.1 (hok e he))
  simp only [hline] at h3
  exact tendsto_nhds_unique tendsto_const_nhds h3

/-- **C138**: if the data are the line integrals of some image, `art` converges from every initial
image, and the limit is the image with these line integrals that is nearest to the initial one. -/
theorem art_converges (hg : GeomOk D g) (hone : GeomOnce D g) {z : Mem ℝ}
    (hc : Consistent D (fun _ => g 0) data z) (recon : Mem ℝ) :
    ∃ lim : Mem ℝ, Consistent D (fun _ => g 0) data lim ∧
      (∀ s < D.dy, ∀ n < D.N,
        Tendsto (fun k => art D g data k recon (n + s * D.N)) atTop (𝓝 (lim (n + s * D.N)))) ∧
      ∀ y, Consistent D (fun _ => g 0) data y → ∀ s < D.dy,
        dist2 D s recon y = dist2 D s recon lim + dist2 D s lim y := by
  -- a cluster point
  have hbound : ∀ k, ∀ s < D.dy, ∀ n < D.N, |art D g data k recon (n + s * D.N) - z (n + s * D.N)|
      ≤ √(dist2 D s recon z) := fun k s hs n hn =>
    (abs_pixel_le s _ _ hn).trans (Real.sqrt_le_sqrt (by
      have := art_distance (Nat.zero_le k) hg hone hc recon s
      rwa [art_zero] at this))
  let u : Nat → Nat → ℝ := fun k x => if x < D.dy * D.N then art D g data k recon x else 0
  have hcomp : IsCompact (Set.univ.pi fun x : Nat => if x < D.dy * D.N then
      Set.Icc (z x - √(dist2 D (x / D.N) recon z)) (z x + √(dist2 D (x / D.N) recon z)) else {0}) := by
    apply isCompact_univ_pi
    intro x
    split
    · exact isCompact_Icc
    · exact isCompact_singleton
  obtain ⟨a, -, φ, hφ, hlim⟩ := hcomp.tendsto_subseq (x := u) (by
    intro k x _
    show u k x ∈ if x < D.dy * D.N then _ else _
    by_cases hx : x < D.dy * D.N
    · simp only [u, if_pos hx]
      have hN : 0 < D.N := by
        rcases Nat.eq_zero_or_pos D.N with h | h
        · rw [h, Nat.mul_zero] at hx; omega
        · exact h
      have hs : x / D.N < D.dy := Nat.div_lt_of_lt_mul (by rwa [Nat.mul_comm])
      have hb := hbound k (x / D.N) hs (x % D.N) (Nat.mod_lt _ hN)
      rw [Nat.mod_add_div'] at hb
      have := abs_le.mp hb
      exact ⟨by linarith [this.1], by linarith [this.2]⟩
    · simp only [u, if_neg hx]
      exact Set.mem_singleton _)
  have ha : ∀ s < D.dy, ∀ n < D.N,
      Tendsto (fun k => art D g data (φ k) recon (n + s * D.N)) atTop (𝓝 (a (n + s * D.N))) := by
    intro s hs n hn
    have := (tendsto_pi_nhds.mp hlim) (n + s * D.N)
    simpa only [u, Function.comp, if_pos (pix_lt hn hs)] using this
  have hca := art_cluster hg hone hc hφ ha
  have htend : ∀ s < D.dy, ∀ n < D.N,
      Tendsto (fun k => art D g data k recon (n + s * D.N)) atTop (𝓝 (a (n + s * D.N))) := by
    intro s hs n hn
    have hanti : Antitone fun k => dist2 D s (art D g data k recon) a :=
      fun k l hkl => art_distance hkl hg hone hca recon s
    have h0 : Tendsto (fun k => dist2 D s (art D g data k recon) a) atTop (𝓝 0) := by
      rw [tendsto_iff_tendsto_subseq_of_antitone hanti hφ.tendsto_atTop]
      have := dist2_tendsto (D := D) (b := a) (ha s hs)
      have e : dist2 D s a a = 0 := by simp [dist2]
      rw [e] at this
      exact this
    have h1 : Tendsto (fun k => art D g data k recon (n + s * D.N) - a (n + s * D.N)) atTop (𝓝 0) :=
      squeeze_zero_norm (a := fun k => √(dist2 D s (art D g data k recon) a))
        (fun k => by rw [Real.norm_eq_abs]; exact abs_pixel_le s _ _ hn)
        (by simpa [Function.comp_def] using (Real.continuous_sqrt.tendsto 0).comp h0)
    simpa using h1.add_const (a (n + s * D.N))
  refine ⟨a, hca, htend, fun y hy s hs => ?_⟩
  -- orthogonality in the limit
  have horth : ∑ n ∈ Finset.range D.N, (a (n + s * D.N) - recon (n + s * D.N)) *
      (y (n + s * D.N) - a (n + s * D.N)) = 0 := by
    have h1 : Tendsto (fun k => ∑ n ∈ Finset.range D.N,
        (art D g data k recon (n + s * D.N) - recon (n + s * D.N)) *
        (y (n + s * D.N) - a (n + s * D.N))) atTop (𝓝 (∑ n ∈ Finset.range D.N,
        (a (n + s * D.N) - recon (n + s * D.N)) * (y (n + s * D.N) - a (n + s * D.N)))) :=
      tendsto_finsetSum _ fun n hn =>
        ((htend s hs n (Finset.mem_range.mp hn)).sub_const _).mul_const _
    simp only [art_orthogonal hg hy hca] at h1
    exact tendsto_nhds_unique h1 tendsto_const_nhds |>.symm ▸ rfl
  unfold dist2
  rw [← Finset.sum_add_distrib, ← sub_eq_zero, ← Finset.sum_sub_distrib]
  have e : ∀ n ∈ Finset.range D.N, (recon (n + s * D.N) - y (n + s * D.N)) ^ 2 -
      ((recon (n + s * D.N) - a (n + s * D.N)) ^ 2 + (a (n + s * D.N) - y (n + s * D.N)) ^ 2) =
      2 * ((a (n + s * D.N) - recon (n + s * D.N)) * (y (n + s * D.N) - a (n + s * D.N))) := by
    intro n _; ring
  rw [Finset.sum_congr rfl e, ← Finset.mul_sum, horth, mul_zero]

/-- **C138**: if only one image has the measured line integrals, `art` finds it. -/
theorem art_recovers (hg : GeomOk D g) (hone : GeomOnce D g) {z : Mem ℝ}
    (hc : Consistent D (fun _ => g 0) data z)
    (huniq : ∀ y, Consistent D (fun _ => g 0) data y → SameImage D y z) (recon : Mem ℝ) :
    ∀ s < D.dy, ∀ n < D.N,
      Tendsto (fun k => art D g data k recon (n + s * D.N)) atTop (𝓝 (z (n + s * D.N))) := by
  obtain ⟨lim, h1, h2, -⟩ := art_converges hg hone hc recon
  intro s hs n hn
  rw [← huniq lim h1 s hs n hn]
  exact h2 s hs n hn

end Real

section Examples

/-- Two pixels; the first ray crosses both, the second one the first pixel. -/
private def cvG : Geom ℝ := fun _ _ d => if d = 0 then [(0, 1), (1, 1)] else [(0, 2)]

private def cvD : Dims := ⟨1, 1, 2, 2⟩

private def cvData : Mem ℝ := fun i => if i = 0 then 5 else 4

example : GeomOk cvD cvG := by
  intro s _ p _ d _ e he
  unfold cvG at he
  split at he
  · simp only [List.mem_cons, List.not_mem_nil, or_false] at he
    rcases he with rfl | rfl <;> simp [cvD]
  · simp only [List.mem_cons, List.not_mem_nil, or_false] at he
    subst he; simp [cvD]

example : GeomOnce cvD cvG := by
  intro s _ p _ d _
  unfold cvG Once
  split <;> simp

private theorem cv_consistent (y : Mem ℝ) :
    Consistent cvD (fun _ => cvG 0) cvData y ↔ y 0 = 2 ∧ y 1 = 3 := by
  constructor
  · intro h
    have h0 := h 0 (by decide) 0 (by decide) 0 (by decide) (by simp [sumDist2, cvG])
    have h1 := h 0 (by decide) 0 (by decide) 1 (by decide) (by simp [sumDist2, cvG])
    simp [cvData, cvG, cvD, Dims.data, lineSum] at h0 h1
    exact ⟨by linarith, by linarith⟩
  · rintro ⟨h0, h1⟩ s hs p hp d hd _
    simp only [cvD] at hs hp hd
    obtain rfl : s = 0 := by omega
    obtain rfl : p = 0 := by omega
    obtain rfl | rfl : d = 0 ∨ d = 1 := by omega
    · simp [cvData, cvG, cvD, Dims.data, lineSum, h0, h1]; norm_num
    · simp [cvData, cvG, cvD, Dims.data, lineSum, h0]; norm_num

/-- The hypotheses of `art_recovers` hold for two rays that are not orthogonal. -/
example : Consistent cvD (fun _ => cvG 0) cvData (fun n => n + 2) ∧
    ∀ y, Consistent cvD (fun _ => cvG 0) cvData y → SameImage cvD y (fun n => n + 2) := by
  refine ⟨(cv_consistent _).mpr (by norm_num), fun y hy s hs n hn => ?_⟩
  obtain ⟨h0, h1⟩ := (cv_consistent y).mp hy
  simp only [cvD] at hs hn
  obtain rfl : s = 0 := by omega
  obtain rfl | rfl : n = 0 ∨ n = 1 := by omega
  · simpa [cvD] using h0
  · simp [cvD, h1]; norm_num

end Examples

end Tomopy.Iter
