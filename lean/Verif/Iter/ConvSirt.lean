import Verif.Iter.ConvArt
import Mathlib.Algebra.Order.BigOperators.Ring.Finset

/-!
# Convergence of SIRT (C140)
-/

set_option linter.unusedSectionVars false

namespace Tomopy.Iter

open Filter Topology

section Field

variable {K : Type*} [Field K] [LinearOrder K] [IsStrictOrderedRing K]

/-! ## Specifications -/

/-- The total length of a ray inside the slice. -/
def rayLength (ray : Segs K) : K := (ray.map Prod.snd).sum

/-- The squared distance of two images, every pixel weighted by the total length of the rays in
it. -/
def wdist (D : Dims) (g : Geom K) (s : Nat) (r z : Mem K) : K :=
  ∑ n ∈ Finset.range D.N, sensitivity D g s n * (r (n + s * D.N) - z (n + s * D.N)) ^ 2

/-! ## The inequality -/

section Abstract

variable {ι : Type*}

theorem sirt_gain (Q : Finset ι) (N : Nat) (a : ι → Nat → K) (b R : ι → K) (x x' z : Nat → K)
    (ha : ∀ q ∈ Q, ∀ n < N, 0 ≤ a q n) (hR : ∀ q ∈ Q, 0 < R q)
    (hz : ∀ q ∈ Q, b q = ∑ n ∈ Finset.range N, z n * a q n)
    (hx : ∀ n < N, x' n = x n + if ∑ q ∈ Q, a q n ≠ 0 then
      (∑ q ∈ Q, (b q - ∑ n ∈ Finset.range N, x n * a q n) / R q * a q n) / ∑ q ∈ Q, a q n else 0) :
    ∑ n ∈ Finset.range N, (∑ q ∈ Q, a q n) * (x' n - z n) ^ 2 ≤
      ∑ n ∈ Finset.range N, (∑ q ∈ Q, a q n) * (x n - z n) ^ 2 -
        ∑ q ∈ Q, (b q - ∑ n ∈ Finset.range N, x n * a q n) ^ 2 / R q *
          (2 - (∑ n ∈ Finset.range N, a q n) / R q) := by
  obtain ⟨w, hw⟩ : ∃ w : ι → K, ∀ q, w q = (b q - ∑ n ∈ Finset.range N, x n * a q n) / R q :=
    ⟨_, fun _ => rfl⟩
  simp only [← hw] at hx
  have h1 : ∀ n ∈ Finset.range N, (∑ q ∈ Q, a q n) * (x' n - z n) ^ 2 ≤
      (∑ q ∈ Q, a q n) * (x n - z n) ^ 2 + (2 * ∑ q ∈ Q, w q * ((x n - z n) * a q n) +
        ∑ q ∈ Q, w q ^ 2 * a q n) := by
    intro n hn
    have hn := Finset.mem_range.mp hn
    rw [hx n hn]
    by_cases hc : ∑ q ∈ Q, a q n = 0
    · have h0 := (Finset.sum_eq_zero_iff_of_nonneg fun q hq => ha q hq n hn).mp hc
      have e1 : ∑ q ∈ Q, w q * ((x n - z n) * a q n) = 0 :=
        Finset.sum_eq_zero fun q hq => by rw [h0 q hq]; ring
      have e2 : ∑ q ∈ Q, w q ^ 2 * a q n = 0 := Finset.sum_eq_zero fun q hq => by rw [h0 q hq]; ring
      rw [hc, e1, e2]
      simp
    · rw [if_pos hc]
      have hpos : 0 < ∑ q ∈ Q, a q n :=
        lt_of_le_of_ne (Finset.sum_nonneg fun q hq => ha q hq n hn) (Ne.symm hc)
      have hcs := Finset.sum_sq_le_sum_mul_sum_of_sq_le_mul Q (r := fun q => w q * a q n)
        (f := fun q => a q n) (g := fun q => w q ^ 2 * a q n) (fun q hq => ha q hq n hn)
        (fun q hq => mul_nonneg (sq_nonneg _) (ha q hq n hn)) (fun q _ => le_of_eq (by ring))
      have e : ∑ q ∈ Q, w q * ((x n - z n) * a q n) = (x n - z n) * ∑ q ∈ Q, w q * a q n := by
        rw [Finset.mul_sum]
        exact Finset.sum_congr rfl fun q _ => by ring
      rw [e]
      generalize ∑ q ∈ Q, w q * a q n = u at *
      generalize ∑ q ∈ Q, a q n = c at *
      generalize ∑ q ∈ Q, w q ^ 2 * a q n = t at *
      have e2 : c * (x n + u / c - z n) ^ 2 = c * (x n - z n) ^ 2 + (2 * ((x n - z n) * u) +
          u ^ 2 / c) := by
        field_simp
        ring
      have e3 : u ^ 2 / c ≤ t := by rw [div_le_iff₀ hpos]; linarith
      rw [e2]
      linarith
  refine (Finset.sum_le_sum h1).trans (le_of_eq ?_)
  rw [Finset.sum_add_distrib, sub_eq_add_neg]
  congr 1
  rw [Finset.sum_add_distrib, ← Finset.mul_sum, Finset.sum_comm,
    Finset.sum_comm (s := Finset.range N), Finset.mul_sum, ← Finset.sum_add_distrib,
    ← Finset.sum_neg_distrib]
  refine Finset.sum_congr rfl fun q hq => ?_
  rw [← Finset.mul_sum, ← Finset.mul_sum]
  have e : ∑ n ∈ Finset.range N, (x n - z n) * a q n =
      ∑ n ∈ Finset.range N, x n * a q n - b q := by
    rw [hz q hq, ← Finset.sum_sub_distrib]
    exact Finset.sum_congr rfl fun n _ => by ring
  rw [e, hw]
  have := (hR q hq).ne'
  field_simp
  ring

end Abstract

/-! ## One iteration -/

theorem rayLength_eq {N : Nat} {ray : Segs K} (hr : ∀ e ∈ ray, e.1 < N) :
    rayLength ray = ∑ n ∈ Finset.range N, lenIn ray n := by
  have h := lineSum_eq_sum_lenIn (N := N) (s := 0) hr (fun _ => 1)
  simp only [one_mul] at h
  rw [← h]
  simp only [rayLength, lineSum, one_mul]

theorem sirt_succ {D : Dims} {g : Geom K} {data : Mem K} (k : Nat) (recon : Mem K) :
    sirt D g data (k + 1) recon = (sirt D g data k recon).bind (sirt D g data 1) := by
  by_cases hne : D.dy = 0 ∨ D.dt = 0 ∨ D.dx = 0
  · have h : ∀ n r, sirt D g data n r = some r := by
      intro n r
      unfold sirt bart osRun
      rw [if_pos hne]
    rw [h, h, Option.bind_some, h]
  · have hsirt : ∀ n r, sirt D g data n r =
        iterM (osIter bartMethod (bartFin D) D g data [List.range D.dt]) n r := by
      intro n r
      unfold sirt bart osRun
      rw [if_neg hne, blocks_single]
      rfl
    rw [hsirt, iterM_succ_last, ← hsirt]
    congr 1
    funext r
    rw [hsirt 1 r]
    simp [iterM]

/-- One iteration of `sirt`. -/
theorem sirt_one {D : Dims} {g : Geom K} (data : Mem K) (hg : GeomOk D g) (r : Mem K) :
    ∃ r', sirt D g data 1 r = some r' ∧ ∀ s < D.dy, ∀ n < D.N,
      r' (n + s * D.N) = r (n + s * D.N) + if sensitivity D g s n ≠ 0 then
        ((raysOf D.dx (List.range D.dt)).map fun q => if sumDist2 (g s q.1 q.2) ≠ 0 then
          (data (D.data s q.1 q.2) - lineSum D.N s (g s q.1 q.2) r) / sumDist2 (g s q.1 q.2)
            * lenIn (g s q.1 q.2) n else 0).sum / sensitivity D g s n else 0 := by
  by_cases hne : D.dy = 0 ∨ D.dt = 0 ∨ D.dx = 0
  · refine ⟨r, by unfold sirt bart osRun; rw [if_pos hne], fun s hs n hn => ?_⟩
    have : raysOf D.dx (List.range D.dt) = [] := by
      rw [List.eq_nil_iff_forall_not_mem]
      intro q hq
      have := mem_raysOf.mp hq
      rw [List.mem_range] at this
      omega
    simp [sensitivity, this]
  have hps : ∀ p ∈ List.range D.dt, p < D.dt := fun p hp => List.mem_range.mp hp
  have hsirt : sirt D g data 1 r =
      osIter bartMethod (bartFin D) D g data [List.range D.dt] r := by
    unfold sirt bart osRun
    rw [if_neg hne, blocks_single]
    simp [iterM]
  rw [hsirt, osIter_pure (bartFin_ok D) (blocksOk_single D)]
  have key : ∀ m ≤ D.dy, ∃ r', (List.range m).foldlM (fun r s => [List.range D.dt].foldlM
      (fun r ps => pureBlock bartMethod (bartFin D) D g data s ps r) r) r = some r' ∧
      (∀ x, m * D.N ≤ x → r' x = r x) ∧ ∀ s < m, ∀ n < D.N,
      r' (n + s * D.N) = r (n + s * D.N) + if sensitivity D g s n ≠ 0 then
        ((raysOf D.dx (List.range D.dt)).map fun q => if sumDist2 (g s q.1 q.2) ≠ 0 then
          (data (D.data s q.1 q.2) - lineSum D.N s (g s q.1 q.2) r) / sumDist2 (g s q.1 q.2)
            * lenIn (g s q.1 q.2) n else 0).sum / sensitivity D g s n else 0 := by
    intro m
    induction m with
    | zero => intro _; exact ⟨r, rfl, fun _ _ => rfl, by simp⟩
    | succ m ih =>
      intro hm
      obtain ⟨r2, h2, hf2, hc2⟩ := ih (by omega)
      obtain ⟨r3, h3, he3, hf3⟩ := bart_block (D := D) (g := g) (data := data) (s := m)
        List.nodup_range hps r2
      have hcur : ∀ n < D.N, r2 (n + m * D.N) = r (n + m * D.N) := fun n _ => hf2 _ (by omega)
      refine ⟨r3, ?_, ?_, ?_⟩
      · rw [List.range_succ, List.foldlM_append, h2]
        show (some r2).bind (fun r => [m].foldlM _ r) = some r3
        simp only [Option.bind_some, List.foldlM_cons, List.foldlM_nil, h3]
        rfl
      · intro x hx
        rw [Nat.succ_mul] at hx
        rw [hf3 x (by omega), hf2 x (by omega)]
      · intro s hs n hn
        by_cases e : s = m
        · subst e
          rw [he3 n hn, hcur n hn]
          unfold sensitivity
          congr 3
          congr 1
          apply List.map_congr_left
          intro q hq
          have hm' := mem_raysOf.mp hq
          have hok := hg s (by omega) _ (hps _ hm'.1) _ hm'.2
          rw [lineSum_congr fun e' he' => hcur e'.1 (hok e' he').1]
        · have hfr : r3 (n + s * D.N) = r2 (n + s * D.N) := hf3 _ (other_slice hn e)
          rw [hfr]
          exact hc2 s (by omega) n hn
  obtain ⟨r', h1, -, h4⟩ := key D.dy (le_refl _)
  exact ⟨r', h1, h4⟩

open Classical in
/-- The rays of slice `s` that hit the image. -/
private noncomputable def hits (D : Dims) (g : Geom K) (s : Nat) : Finset (Nat × Nat) :=
  (raysOf D.dx (List.range D.dt)).toFinset.filter fun q => sumDist2 (g s q.1 q.2) ≠ 0

private theorem sum_hits {D : Dims} {g : Geom K} (s : Nat) (f : Nat × Nat → K) :
    ((raysOf D.dx (List.range D.dt)).map fun q => if sumDist2 (g s q.1 q.2) ≠ 0 then f q else 0).sum
      = ∑ q ∈ hits D g s, f q := by
  unfold hits
  rw [Finset.sum_filter, List.sum_toFinset _ (raysOf_nodup List.nodup_range)]

private theorem mem_hits {D : Dims} {g : Geom K} {s : Nat} {q : Nat × Nat} :
    q ∈ hits D g s ↔ (q.1 < D.dt ∧ q.2 < D.dx) ∧ sumDist2 (g s q.1 q.2) ≠ 0 := by
  unfold hits
  rw [Finset.mem_filter, List.mem_toFinset, mem_raysOf, List.mem_range]

private theorem sens_eq {D : Dims} {g : Geom K} (s n : Nat) :
    sensitivity D g s n = ∑ q ∈ hits D g s, lenIn (g s q.1 q.2) n := by
  rw [← sum_hits]
  unfold sensitivity
  congr 1
  apply List.map_congr_left
  intro q _
  split
  · rfl
  · rename_i h
    by_contra hne
    exact h (sumDist2_ne_of_lenIn hne)

theorem sensitivity_nonneg {D : Dims} {g : Geom K} (hg : GeomOk D g) {s : Nat} (hs : s < D.dy)
    (n : Nat) : 0 ≤ sensitivity D g s n := by
  rw [sens_eq]
  exact Finset.sum_nonneg fun q hq =>
    lenIn_nonneg (hg s hs _ (mem_hits.mp hq).1.1 _ (mem_hits.mp hq).1.2) n

/-- **C140** (one iteration): the weighted squared distance to an image with the measured line
integrals falls by at least the weighted sum of the squared residuals. -/
theorem sirt_step_gain {D : Dims} {g : Geom K} {data : Mem K} (hg : GeomOk D g)
    {r z : Mem K} (hc : Consistent D g data z) :
    ∃ r', sirt D g data 1 r = some r' ∧ ∀ s < D.dy,
      wdist D g s r' z ≤ wdist D g s r z -
        ((raysOf D.dx (List.range D.dt)).map fun q => if sumDist2 (g s q.1 q.2) ≠ 0 then
          (data (D.data s q.1 q.2) - lineSum D.N s (g s q.1 q.2) r) ^ 2 / sumDist2 (g s q.1 q.2) *
            (2 - rayLength (g s q.1 q.2) / sumDist2 (g s q.1 q.2)) else 0).sum := by
  obtain ⟨r', h1, h2⟩ := sirt_one data hg r
  refine ⟨r', h1, fun s hs => ?_⟩
  have hok : ∀ q ∈ hits D g s, ∀ e ∈ g s q.1 q.2, e.1 < D.N := fun q hq e he =>
    (hg s hs _ (mem_hits.mp hq).1.1 _ (mem_hits.mp hq).1.2 e he).1
  have hline : ∀ (m : Mem K), ∀ q ∈ hits D g s, lineSum D.N s (g s q.1 q.2) m =
      ∑ n ∈ Finset.range D.N, m (n + s * D.N) * lenIn (g s q.1 q.2) n := fun m q hq =>
    lineSum_eq_sum_lenIn (hok q hq) m
  have hgain := sirt_gain (hits D g s) D.N (fun q n => lenIn (g s q.1 q.2) n)
    (fun q => data (D.data s q.1 q.2)) (fun q => sumDist2 (g s q.1 q.2))
    (fun n => r (n + s * D.N)) (fun n => r' (n + s * D.N)) (fun n => z (n + s * D.N))
    (fun q hq n _ => lenIn_nonneg (hg s hs _ (mem_hits.mp hq).1.1 _ (mem_hits.mp hq).1.2) n)
    (fun q hq => lt_of_le_of_ne (sumDist2_nonneg _) (Ne.symm (mem_hits.mp hq).2))
    (fun q hq => by
      rw [← hline z q hq]
      exact hc s hs _ (mem_hits.mp hq).1.1 _ (mem_hits.mp hq).1.2 (mem_hits.mp hq).2)
    (fun n hn => by
      rw [h2 s hs n hn, sum_hits, sens_eq]
      congr 3
      exact Finset.sum_congr rfl fun q hq => by rw [hline r q hq])
  unfold wdist
  rw [sum_hits]
  simp only [sens_eq]
  refine hgain.trans (le_of_eq ?_)
  congr 1
  exact Finset.sum_congr rfl fun q hq => by rw [hline r q hq, rayLength_eq (hok q hq)]

/-- **C140**: if every ray is at most twice as long as its sum of squared lengths, the weighted
distance to an image with the measured line integrals never increases. -/
theorem sirt_distance {D : Dims} {g : Geom K} {data : Mem K} (hg : GeomOk D g)
    (hlen : ∀ s < D.dy, ∀ p < D.dt, ∀ d < D.dx, rayLength (g s p d) ≤ 2 * sumDist2 (g s p d))
    {z : Mem K} (hc : Consistent D g data z) (recon : Mem K) {k l : Nat} (hkl : k ≤ l) :
    ∃ r r', sirt D g data k recon = some r ∧ sirt D g data l recon = some r' ∧
      ∀ s < D.dy, wdist D g s r' z ≤ wdist D g s r z := by
  have hstep : ∀ r, ∃ r', sirt D g data 1 r = some r' ∧
      ∀ s < D.dy, wdist D g s r' z ≤ wdist D g s r z := by
    intro r
    obtain ⟨r', h1, h2⟩ := sirt_step_gain hg hc (r := r)
    refine ⟨r', h1, fun s hs => (h2 s hs).trans (sub_le_self _ ?_)⟩
    refine list_sum_nonneg_of _ _ fun q hq => ?_
    have hm := mem_raysOf.mp hq
    rw [List.mem_range] at hm
    split
    · rename_i h0
      have hpos : 0 < sumDist2 (g s q.1 q.2) := lt_of_le_of_ne (sumDist2_nonneg _) (Ne.symm h0)
      refine mul_nonneg (div_nonneg (sq_nonneg _) hpos.le) ?_
      rw [sub_nonneg, div_le_iff₀ hpos]
      exact hlen s hs _ hm.1 _ hm.2
    · exact le_refl _
  have hdef : ∀ k, ∃ r, sirt D g data k recon = some r := by
    intro k
    induction k with
    | zero =>
      refine ⟨recon, ?_⟩
      unfold sirt bart osRun
      split
      · rfl
      · rw [blocks_single]; rfl
    | succ k ih =>
      obtain ⟨r, h⟩ := ih
      obtain ⟨r', h', _⟩ := hstep r
      exact ⟨r', by rw [sirt_succ, h, Option.bind_some, h']⟩
  induction l, hkl using Nat.le_induction with
  | base =>
    obtain ⟨r, h⟩ := hdef k
    exact ⟨r, r, h, h, fun _ _ => le_refl _⟩
  | succ l hkl ih =>
    obtain ⟨r, r1, h1, h2, h3⟩ := ih
    obtain ⟨r2, h4, h5⟩ := hstep r1
    exact ⟨r, r2, h1, by rw [sirt_succ, h2, Option.bind_some, h4],
      fun s hs => (h5 s hs).trans (h3 s hs)⟩

/-- Changes made by `sirt` are orthogonal, in the weighted sense, to the differences of images with
the same line integrals. -/
theorem sirt_orthogonal {D : Dims} {g : Geom K} {data : Mem K} (hg : GeomOk D g) {y z : Mem K}
    (hy : Consistent D g data y) (hz : Consistent D g data z) {r r' : Mem K}
    (h : sirt D g data 1 r = some r') {s : Nat} (hs : s < D.dy) :
    ∑ n ∈ Finset.range D.N, sensitivity D g s n * ((r' (n + s * D.N) - r (n + s * D.N)) *
      (y (n + s * D.N) - z (n + s * D.N))) = 0 := by
  obtain ⟨r1, h1, h2⟩ := sirt_one data hg r
  rw [h, Option.some.injEq] at h1
  subst h1
  have e : ∀ n ∈ Finset.range D.N, sensitivity D g s n * ((r' (n + s * D.N) - r (n + s * D.N)) *
      (y (n + s * D.N) - z (n + s * D.N))) =
      ∑ q ∈ hits D g s, (data (D.data s q.1 q.2) - lineSum D.N s (g s q.1 q.2) r) /
        sumDist2 (g s q.1 q.2) * (y (n + s * D.N) * lenIn (g s q.1 q.2) n -
          z (n + s * D.N) * lenIn (g s q.1 q.2) n) := by
    intro n hn
    rw [h2 s hs n (Finset.mem_range.mp hn), sum_hits]
    by_cases hc : sensitivity D g s n = 0
    · rw [if_neg (not_not.mpr hc), hc, zero_mul]
      rw [sens_eq, Finset.sum_eq_zero_iff_of_nonneg fun q hq =>
        lenIn_nonneg (hg s hs _ (mem_hits.mp hq).1.1 _ (mem_hits.mp hq).1.2) n] at hc
      exact (Finset.sum_eq_zero fun q hq => by rw [hc q hq]; ring).symm
    · rw [if_pos hc, add_sub_cancel_left, ← mul_assoc, mul_div_cancel₀ _ hc, Finset.sum_mul]
      exact Finset.sum_congr rfl fun q _ => by ring
  rw [Finset.sum_congr rfl e, Finset.sum_comm]
  refine Finset.sum_eq_zero fun q hq => ?_
  have hm := mem_hits.mp hq
  have hok : ∀ e ∈ g s q.1 q.2, e.1 < D.N := fun e he => (hg s hs _ hm.1.1 _ hm.1.2 e he).1
  rw [← Finset.mul_sum, Finset.sum_sub_distrib, ← lineSum_eq_sum_lenIn hok,
    ← lineSum_eq_sum_lenIn hok, ← hy s hs _ hm.1.1 _ hm.1.2 hm.2,
    ← hz s hs _ hm.1.1 _ hm.1.2 hm.2, sub_self, mul_zero]

/-! ## Divergence -/

/-- **C140** (refutation): one ray of length `a` through one pixel.  Every iteration multiplies the
error by `1 - 1 / a`: for `a < 1 / 2` it grows without bound. -/
theorem sirt_one_ray {g : Geom K} (hg : GeomOk ⟨1, 1, 1, 1⟩ g) (ho : Once (g 0 0 0))
    (ha : 0 < rayLength (g 0 0 0)) {data : Mem K} {z : K} (hd : data 0 = z * rayLength (g 0 0 0))
    (x0 : K) (k : Nat) :
    ∃ r, sirt ⟨1, 1, 1, 1⟩ g data k (fun _ => x0) = some r ∧
      r 0 - z = (1 - 1 / rayLength (g 0 0 0)) ^ k * (x0 - z) := by
  have hok : ∀ e ∈ g 0 0 0, e.1 < 1 := fun e he =>
    (hg 0 Nat.zero_lt_one 0 Nat.zero_lt_one 0 Nat.zero_lt_one e he).1
  have h1 : lenIn (g 0 0 0) 0 = rayLength (g 0 0 0) := by
    have := rayLength_eq hok
    simpa using this.symm
  have h2 : sumDist2 (g 0 0 0) = rayLength (g 0 0 0) * rayLength (g 0 0 0) := by
    have := sum_lenIn_sq (D := ⟨1, 1, 1, 1⟩) hok ho
    simp only [Finset.sum_range_one, h1] at this
    exact this.symm
  have h3 : ∀ m : Mem K, lineSum 1 0 (g 0 0 0) m = m 0 * rayLength (g 0 0 0) := by
    intro m
    rw [lineSum_eq_sum_lenIn hok]
    simp [h1]
  induction k with
  | zero => exact ⟨_, rfl, by simp⟩
  | succ k ih =>
    obtain ⟨r, h4, h5⟩ := ih
    obtain ⟨r', h6, h7⟩ := sirt_one data hg r
    refine ⟨r', by rw [sirt_succ, h4, Option.bind_some, h6], ?_⟩
    have h8 := h7 0 Nat.zero_lt_one 0 Nat.zero_lt_one
    have hr : raysOf 1 (List.range 1) = [(0, 0)] := rfl
    have hi : (⟨1, 1, 1, 1⟩ : Dims).data 0 0 0 = 0 := rfl
    simp only [sensitivity, hr, hi, hd, List.map_cons, List.map_nil, List.sum_cons, List.sum_nil, add_zero,
      h1, h2, h3, zero_mul, mul_ne_zero_iff, ne_eq, ha.ne', not_false_eq_true, and_self,
      if_true] at h8
    rw [h8, pow_succ, mul_right_comm, ← h5]
    field_simp
    ring

theorem sirt_defined {D : Dims} {g : Geom K} (data : Mem K) (hg : GeomOk D g) (recon : Mem K)
    (k : Nat) : ∃ r, sirt D g data k recon = some r := by
  induction k with
  | zero =>
    refine ⟨recon, ?_⟩
    unfold sirt bart osRun
    split
    · rfl
    · rw [blocks_single]; rfl
  | succ k ih =>
    obtain ⟨r, h⟩ := ih
    obtain ⟨r', h', _⟩ := sirt_one data hg r
    exact ⟨r', by rw [sirt_succ, h, Option.bind_some, h']⟩

theorem sirt_zero {D : Dims} {g : Geom K} {data : Mem K} (recon : Mem K) :
    sirt D g data 0 recon = some recon := by
  unfold sirt bart osRun
  split
  · rfl
  · rw [blocks_single]; rfl

end Field

/-! ## Convergence -/

section Real

/-- A sequence of images whose weighted distances to all images of a set fall, and whose cluster
points are in the set, converges to an image of the set. -/
theorem fejer_converges (D : Dims) (c : Nat → Nat → ℝ) (hc : ∀ s < D.dy, ∀ n < D.N, 0 ≤ c s n)
    (x : Nat → Mem ℝ) (P : Mem ℝ → Prop) (hP : ∃ z, P z)
    (hanti : ∀ z, P z → ∀ s < D.dy, Antitone fun k => ∑ n ∈ Finset.range D.N,
      c s n * (x k (n + s * D.N) - z (n + s * D.N)) ^ 2)
    (hfix : ∀ s < D.dy, ∀ n < D.N, c s n = 0 → ∀ k, x k (n + s * D.N) = x 0 (n + s * D.N))
    (hclu : ∀ φ : Nat → Nat, StrictMono φ → ∀ a : Mem ℝ, (∀ s < D.dy, ∀ n < D.N,
      Tendsto (fun k => x (φ k) (n + s * D.N)) atTop (𝓝 (a (n + s * D.N)))) → P a) :
    ∃ a, P a ∧ ∀ s < D.dy, ∀ n < D.N,
      Tendsto (fun k => x k (n + s * D.N)) atTop (𝓝 (a (n + s * D.N))) := by
  obtain ⟨z, hz⟩ := hP
  have hterm : ∀ (w : Mem ℝ) (k s : Nat), s < D.dy → ∀ n < D.N,
      c s n * (x k (n + s * D.N) - w (n + s * D.N)) ^ 2 ≤
      ∑ n ∈ Finset.range D.N, c s n * (x k (n + s * D.N) - w (n + s * D.N)) ^ 2 :=
    fun w k s hs n hn => Finset.single_le_sum
      (f := fun n => c s n * (x k (n + s * D.N) - w (n + s * D.N)) ^ 2)
      (fun i hi => mul_nonneg (hc s hs i (Finset.mem_range.mp hi)) (sq_nonneg _))
      (Finset.mem_range.mpr hn)
  obtain ⟨W, hW⟩ : ∃ W : Nat → ℝ, ∀ s, W s = ∑ n ∈ Finset.range D.N,
      c s n * (x 0 (n + s * D.N) - z (n + s * D.N)) ^ 2 := ⟨_, fun _ => rfl⟩
  -- the pixels stay in bounded intervals
  have hbound : ∀ k, ∀ s < D.dy, ∀ n < D.N, |x k (n + s * D.N) - z (n + s * D.N)| ≤
      √(W s / c s n) + |x 0 (n + s * D.N) - z (n + s * D.N)| := by
    intro k s hs n hn
    by_cases h0 : c s n = 0
    · rw [hfix s hs n hn h0 k]
      have := Real.sqrt_nonneg (W s / c s n)
      linarith
    · have hpos : 0 < c s n := lt_of_le_of_ne (hc s hs n hn) (Ne.symm h0)
      have h1 := (hterm z k s hs n hn).trans (hanti z hz s hs (Nat.zero_le k))
      simp only [← hW] at h1
      have h2 : |x k (n + s * D.N) - z (n + s * D.N)| ≤ √(W s / c s n) := by
        rw [← Real.sqrt_sq_eq_abs]
        apply Real.sqrt_le_sqrt
        rw [le_div_iff₀ hpos]
        linarith
      have := abs_nonneg (x 0 (n + s * D.N) - z (n + s * D.N))
      linarith
  let B : Nat → ℝ := fun i => √(W (i / D.N) / c (i / D.N) (i % D.N)) + |x 0 i - z i|
  let u : Nat → Nat → ℝ := fun k i => if i < D.dy * D.N then x k i else 0
  have hcomp : IsCompact (Set.univ.pi fun i : Nat => if i < D.dy * D.N then
      Set.Icc (z i - B i) (z i + B i) else {0}) := by
    apply isCompact_univ_pi
    intro i
    split
    · exact isCompact_Icc
    · exact isCompact_singleton
  obtain ⟨a, -, φ, hφ, hlim⟩ := hcomp.tendsto_subseq (x := u) (by
    intro k i _
    show u k i ∈ if i < D.dy * D.N then _ else _
    by_cases hi : i < D.dy * D.N
    · simp only [u, if_pos hi]
      have hN : 0 < D.N := by
        rcases Nat.eq_zero_or_pos D.N with h | h
        · rw [h, Nat.mul_zero] at hi; omega
        · exact h
      have hs : i / D.N < D.dy := Nat.div_lt_of_lt_mul (by rwa [Nat.mul_comm])
      have hb := hbound k (i / D.N) hs (i % D.N) (Nat.mod_lt _ hN)
      rw [Nat.mod_add_div'] at hb
      have := abs_le.mp hb
      exact ⟨by simp only [B]; linarith [this.1], by simp only [B]; linarith [this.2]⟩
    · simp only [u, if_neg hi]
      exact Set.mem_singleton _)
  have ha : ∀ s < D.dy, ∀ n < D.N,
      Tendsto (fun k => x (φ k) (n + s * D.N)) atTop (𝓝 (a (n + s * D.N))) := by
    intro s hs n hn
    have := (tendsto_pi_nhds.mp hlim) (n + s * D.N)
    simpa only [u, Function.comp, if_pos (pix_lt hn hs)] using this
  have hPa := hclu φ hφ a ha
  refine ⟨a, hPa, fun s hs n hn => ?_⟩
  by_cases h0 : c s n = 0
  · have h1 : ∀ k, x k (n + s * D.N) = x 0 (n + s * D.N) := hfix s hs n hn h0
    have h2 := ha s hs n hn
    simp only [h1] at h2 ⊢
    exact h2
  · have hpos : 0 < c s n := lt_of_le_of_ne (hc s hs n hn) (Ne.symm h0)
    have h1 : Tendsto (fun k => ∑ n ∈ Finset.range D.N,
        c s n * (x k (n + s * D.N) - a (n + s * D.N)) ^ 2) atTop (𝓝 0) := by
      rw [tendsto_iff_tendsto_subseq_of_antitone (hanti a hPa s hs) hφ.tendsto_atTop]
      have : Tendsto (fun k => ∑ n ∈ Finset.range D.N,
          c s n * (x (φ k) (n + s * D.N) - a (n + s * D.N)) ^ 2) atTop
          (𝓝 (∑ n ∈ Finset.range D.N, c s n * (a (n + s * D.N) - a (n + s * D.N)) ^ 2)) :=
        tendsto_finsetSum _ fun n hn =>
          (((ha s hs n (Finset.mem_range.mp hn)).sub_const _).pow 2).const_mul _
      simpa [Function.comp_def] using this
    have h2 : Tendsto (fun k => √((∑ n ∈ Finset.range D.N,
        c s n * (x k (n + s * D.N) - a (n + s * D.N)) ^ 2) / c s n)) atTop (𝓝 0) := by
      have := (Real.continuous_sqrt.tendsto _).comp (h1.div_const (c s n))
      simpa [Function.comp_def] using this
    have h3 : Tendsto (fun k => x k (n + s * D.N) - a (n + s * D.N)) atTop (𝓝 0) :=
      squeeze_zero_norm (fun k => by
        rw [Real.norm_eq_abs, ← Real.sqrt_sq_eq_abs]
        apply Real.sqrt_le_sqrt
        rw [le_div_iff₀ hpos]
        have := hterm a k s hs n hn
        linarith) h2
    simpa using h3.add_const (a (n + s * D.N))

variable {D : Dims} {g : Geom ℝ} {data : Mem ℝ}

/-- **C140**: if every ray that hits the image is less than twice as long as its sum of squared
lengths, and the data are the line integrals of some image, `sirt` converges from every initial
image; the limit has the measured line integrals and, of the images that do, the smallest weighted
distance from the initial one. -/
theorem sirt_converges_partial (hg : GeomOk D g)
    (hlen : ∀ s < D.dy, ∀ p < D.dt, ∀ d < D.dx, sumDist2 (g s p d) ≠ 0 →
      rayLength (g s p d) < 2 * sumDist2 (g s p d))
    {z : Mem ℝ} (hz : Consistent D g data z) (recon : Mem ℝ) :
    ∃ (x : Nat → Mem ℝ) (lim : Mem ℝ), (∀ k, sirt D g data k recon = some (x k)) ∧
      Consistent D g data lim ∧
      (∀ s < D.dy, ∀ n < D.N,
        Tendsto (fun k => x k (n + s * D.N)) atTop (𝓝 (lim (n + s * D.N)))) ∧
      ∀ y, Consistent D g data y → ∀ s < D.dy,
        wdist D g s recon y = wdist D g s recon lim + wdist D g s lim y := by
  obtain ⟨x, hx⟩ : ∃ x : Nat → Mem ℝ, ∀ k, sirt D g data k recon = some (x k) :=
    ⟨fun k => (sirt_defined data hg recon k).choose, fun k =>
      (sirt_defined data hg recon k).choose_spec⟩
  have hx0 : x 0 = recon := by
    have := hx 0
    rw [sirt_zero, Option.some.injEq] at this
    exact this.symm
  have hstep : ∀ k, sirt D g data 1 (x k) = some (x (k + 1)) := by
    intro k
    have h := sirt_succ (D := D) (g := g) (data := data) k recon
    rw [hx (k + 1), hx k, Option.bind_some] at h
    exact h.symm
  have hterm : ∀ k, ∀ s < D.dy, ∀ q ∈ raysOf D.dx (List.range D.dt),
      0 ≤ if sumDist2 (g s q.1 q.2) ≠ 0 then
          (data (D.data s q.1 q.2) - lineSum D.N s (g s q.1 q.2) (x k)) ^ 2 /
            sumDist2 (g s q.1 q.2) *
            (2 - rayLength (g s q.1 q.2) / sumDist2 (g s q.1 q.2)) else 0 := by
    intro k s hs q hq
    have hm := mem_raysOf.mp hq
    rw [List.mem_range] at hm
    split
    · rename_i h0
      have hpos : 0 < sumDist2 (g s q.1 q.2) := lt_of_le_of_ne (sumDist2_nonneg _) (Ne.symm h0)
      refine mul_nonneg (div_nonneg (sq_nonneg _) hpos.le) ?_
      rw [sub_nonneg, div_le_iff₀ hpos]
      exact (hlen s hs _ hm.1 _ hm.2 h0).le
    · exact le_refl _
  have hgain : ∀ k, ∀ y, Consistent D g data y → ∀ s < D.dy,
      wdist D g s (x (k + 1)) y ≤ wdist D g s (x k) y -
        ((raysOf D.dx (List.range D.dt)).map fun q => if sumDist2 (g s q.1 q.2) ≠ 0 then
          (data (D.data s q.1 q.2) - lineSum D.N s (g s q.1 q.2) (x k)) ^ 2 /
            sumDist2 (g s q.1 q.2) *
            (2 - rayLength (g s q.1 q.2) / sumDist2 (g s q.1 q.2)) else 0).sum := by
    intro k y hy s hs
    obtain ⟨r', h1, h2⟩ := sirt_step_gain hg hy (r := x k)
    rw [hstep k, Option.some.injEq] at h1
    subst h1
    exact h2 s hs
  have hanti : ∀ y, Consistent D g data y → ∀ s < D.dy, Antitone fun k => wdist D g s (x k) y := by
    intro y hy s hs
    refine antitone_nat_of_succ_le fun k => ?_
    have h1 := hgain k y hy s hs
    have h2 := list_sum_nonneg_of _ _ (hterm k s hs)
    linarith
  have hwn : ∀ k, ∀ s < D.dy, 0 ≤ wdist D g s (x k) z := fun k s hs =>
    Finset.sum_nonneg fun n _ => mul_nonneg (sensitivity_nonneg hg hs n) (sq_nonneg _)
  -- the residuals tend to zero
  have hres : ∀ s < D.dy, ∀ p < D.dt, ∀ d < D.dx, sumDist2 (g s p d) ≠ 0 →
      Tendsto (fun k => data (D.data s p d) - lineSum D.N s (g s p d) (x k)) atTop (𝓝 0) := by
    intro s hs p hp d hd h0
    have hpos : 0 < sumDist2 (g s p d) := lt_of_le_of_ne (sumDist2_nonneg _) (Ne.symm h0)
    have hkap : 0 < (2 - rayLength (g s p d) / sumDist2 (g s p d)) / sumDist2 (g s p d) := by
      refine div_pos ?_ hpos
      rw [sub_pos, div_lt_iff₀ hpos]
      exact hlen s hs p hp d hd h0
    obtain ⟨κ, hκ⟩ : ∃ κ, κ = (2 - rayLength (g s p d) / sumDist2 (g s p d)) /
      sumDist2 (g s p d) := ⟨_, rfl⟩
    rw [← hκ] at hkap
    have hlim := tendsto_atTop_ciInf (hanti z hz s hs) ⟨0, by rintro _ ⟨k, rfl⟩; exact hwn k s hs⟩
    have hdelta : Tendsto (fun k => wdist D g s (x k) z - wdist D g s (x (k + 1)) z) atTop
        (𝓝 0) := by
      have := hlim.sub ((tendsto_add_atTop_iff_nat 1).mpr hlim)
      simpa using this
    have hsq : Tendsto (fun k => √((wdist D g s (x k) z - wdist D g s (x (k + 1)) z) / κ)) atTop
        (𝓝 0) := by
      have := (Real.continuous_sqrt.tendsto _).comp (hdelta.div_const κ)
      simpa [Function.comp_def] using this
    refine squeeze_zero_norm (fun k => ?_) hsq
    rw [Real.norm_eq_abs, ← Real.sqrt_sq_eq_abs]
    apply Real.sqrt_le_sqrt
    rw [le_div_iff₀ hkap]
    have h1 := hgain k z hz s hs
    have hmem : (p, d) ∈ raysOf D.dx (List.range D.dt) :=
      mem_raysOf.mpr ⟨List.mem_range.mpr hp, hd⟩
    have h2 := List.single_le_sum (l := (raysOf D.dx (List.range D.dt)).map fun q =>
      if sumDist2 (g s q.1 q.2) ≠ 0 then
          (data (D.data s q.1 q.2) - lineSum D.N s (g s q.1 q.2) (x k)) ^ 2 /
            sumDist2 (g s q.1 q.2) *
            (2 - rayLength (g s q.1 q.2) / sumDist2 (g s q.1 q.2)) else 0)
      (by
        intro v hv
        obtain ⟨q, hq, rfl⟩ := List.mem_map.mp hv
        exact hterm k s hs q hq) _ (List.mem_map_of_mem hmem)
    simp only [if_pos h0] at h2
    have e : (data (D.data s p d) - lineSum D.N s (g s p d) (x k)) ^ 2 / sumDist2 (g s p d) *
        (2 - rayLength (g s p d) / sumDist2 (g s p d)) =
        (data (D.data s p d) - lineSum D.N s (g s p d) (x k)) ^ 2 * κ := by
      rw [hκ]; ring
    rw [e] at h2
    linarith
  have hfix : ∀ s < D.dy, ∀ n < D.N, sensitivity D g s n = 0 →
      ∀ k, x k (n + s * D.N) = x 0 (n + s * D.N) := by
    intro s hs n hn h0 k
    induction k with
    | zero => rfl
    | succ k ih =>
      obtain ⟨r', h1, h2⟩ := sirt_one data hg (x k)
      rw [hstep k, Option.some.injEq] at h1
      subst h1
      rw [h2 s hs n hn, if_neg (not_not.mpr h0), add_zero, ih]
  obtain ⟨lim, hl1, hl2⟩ := fejer_converges D (sensitivity D g)
    (fun s hs n _ => sensitivity_nonneg hg hs n) x (Consistent D g data) ⟨z, hz⟩
    hanti hfix (by
      intro φ hφ a ha s hs p hp d hd h0
      have h1 := lineSum_tendsto (D := D) (u := fun k => x (φ k)) (a := a) (s := s) (ray := g s p d)
        (fun e he => ha s hs e.1 (hg s hs p hp d hd e he).1)
      have h2 := ((hres s hs p hp d hd h0).comp hφ.tendsto_atTop).add h1
      have e : (fun k => (((fun k => data (D.data s p d) - lineSum D.N s (g s p d) (x k)) ∘ φ) k) +
          lineSum D.N s (g s p d) (x (φ k))) = fun _ => data (D.data s p d) := by
        funext k
        simp
      rw [e, zero_add] at h2
      exact tendsto_nhds_unique tendsto_const_nhds h2)
  refine ⟨x, lim, hx, hl1, hl2, fun y hy s hs => ?_⟩
  have hortk : ∀ k, ∑ n ∈ Finset.range D.N, sensitivity D g s n *
      ((x k (n + s * D.N) - recon (n + s * D.N)) * (y (n + s * D.N) - lim (n + s * D.N))) = 0 := by
    intro k
    induction k with
    | zero => rw [hx0]; simp
    | succ k ih =>
      have h1 := sirt_orthogonal hg hy hl1 (hstep k) hs
      have e : ∀ n ∈ Finset.range D.N, sensitivity D g s n *
          ((x (k + 1) (n + s * D.N) - recon (n + s * D.N)) * (y (n + s * D.N) - lim (n + s * D.N)))
          = sensitivity D g s n * ((x k (n + s * D.N) - recon (n + s * D.N)) *
            (y (n + s * D.N) - lim (n + s * D.N))) + sensitivity D g s n *
            ((x (k + 1) (n + s * D.N) - x k (n + s * D.N)) *
            (y (n + s * D.N) - lim (n + s * D.N))) := by
        intro n _; ring
      rw [Finset.sum_congr rfl e, Finset.sum_add_distrib, ih, h1, add_zero]
  have horth : ∑ n ∈ Finset.range D.N, sensitivity D g s n *
      ((lim (n + s * D.N) - recon (n + s * D.N)) * (y (n + s * D.N) - lim (n + s * D.N))) = 0 := by
    have h1 : Tendsto (fun k => ∑ n ∈ Finset.range D.N, sensitivity D g s n *
      ((x k (n + s * D.N) - recon (n + s * D.N)) * (y (n + s * D.N) - lim (n + s * D.N)))) atTop
      (𝓝 (∑ n ∈ Finset.range D.N, sensitivity D g s n *
      ((lim (n + s * D.N) - recon (n + s * D.N)) * (y (n + s * D.N) - lim (n + s * D.N))))) :=
      tendsto_finsetSum _ fun n hn =>
        (((hl2 s hs n (Finset.mem_range.mp hn)).sub_const _).mul_const _).const_mul _
    simp only [hortk] at h1
    exact (tendsto_nhds_unique tendsto_const_nhds h1).symm
  unfold wdist
  rw [← Finset.sum_add_distrib, ← sub_eq_zero, ← Finset.sum_sub_distrib]
  have e : ∀ n ∈ Finset.range D.N, sensitivity D g s n * (recon (n + s * D.N) - y (n + s * D.N)) ^ 2
      - (sensitivity D g s n * (recon (n + s * D.N) - lim (n + s * D.N)) ^ 2 +
        sensitivity D g s n * (lim (n + s * D.N) - y (n + s * D.N)) ^ 2) =
      2 * (sensitivity D g s n * ((lim (n + s * D.N) - recon (n + s * D.N)) *
        (y (n + s * D.N) - lim (n + s * D.N)))) := by
    intro n _; ring
  rw [Finset.sum_congr rfl e, ← Finset.mul_sum, horth, mul_zero]

/-- **C140** (refutation): with one ray of length below one half through one pixel the errors of
`sirt` grow beyond all bounds, unless the initial image is the solution. -/
theorem sirt_diverges {g : Geom ℝ} (hg : GeomOk ⟨1, 1, 1, 1⟩ g) (ho : Once (g 0 0 0))
    (ha : 0 < rayLength (g 0 0 0)) (ha2 : rayLength (g 0 0 0) < 1 / 2) {data : Mem ℝ}
    {z x0 : ℝ} (hd : data 0 = z * rayLength (g 0 0 0)) (hne : x0 ≠ z) :
    ∃ x : Nat → Mem ℝ, (∀ k, sirt ⟨1, 1, 1, 1⟩ g data k (fun _ => x0) = some (x k)) ∧
      Tendsto (fun k => |x k 0 - z|) atTop atTop := by
  refine ⟨fun k => (sirt_one_ray hg ho ha hd x0 k).choose, fun k =>
    (sirt_one_ray hg ho ha hd x0 k).choose_spec.1, ?_⟩
  have h1 : ∀ k, |(sirt_one_ray hg ho ha hd x0 k).choose 0 - z| =
      |1 - 1 / rayLength (g 0 0 0)| ^ k * |x0 - z| := by
    intro k
    rw [(sirt_one_ray hg ho ha hd x0 k).choose_spec.2, abs_mul, abs_pow]
  simp only [h1]
  refine Tendsto.atTop_mul_const (abs_pos.mpr (sub_ne_zero.mpr hne)) ?_
  apply tendsto_pow_atTop_atTop_of_one_lt
  have : 2 < 1 / rayLength (g 0 0 0) := by rw [lt_div_iff₀ ha]; linarith
  rw [abs_of_neg (by linarith)]
  linarith

end Real

section Examples

/-- A ray through two pixels and one through the first of them. -/
private def cvG : Geom ℝ := fun _ _ d => if d = 0 then [(0, 1), (1, 1)] else [(0, 2)]

private def cvD : Dims := ⟨1, 1, 2, 2⟩

example : GeomOk cvD cvG := by
  intro s _ p _ d _ e he
  unfold cvG at he
  split at he
  · simp only [List.mem_cons, List.not_mem_nil, or_false] at he
    rcases he with rfl | rfl <;> simp [cvD]
  · simp only [List.mem_cons, List.not_mem_nil, or_false] at he
    subst he; simp [cvD]

/-- The hypothesis of `sirt_converges_partial`. -/
example : ∀ s < cvD.dy, ∀ p < cvD.dt, ∀ d < cvD.dx, sumDist2 (cvG s p d) ≠ 0 →
    rayLength (cvG s p d) < 2 * sumDist2 (cvG s p d) := by
  intro s _ p _ d _ _
  by_cases h : d = 0
  · simp [cvG, h, sumDist2, rayLength]
  · simp [cvG, h, sumDist2, rayLength]; norm_num

example : Consistent cvD cvG (fun i => if i = 0 then 5 else 4) (fun n => n + 2) := by
  intro s hs p hp d hd _
  simp only [cvD] at hs hp hd
  obtain rfl : s = 0 := by omega
  obtain rfl : p = 0 := by omega
  obtain rfl | rfl : d = 0 ∨ d = 1 := by omega
  · simp [cvG, cvD, Dims.data, lineSum]; norm_num
  · simp [cvG, cvD, Dims.data, lineSum]; norm_num

end Examples

end Tomopy.Iter
