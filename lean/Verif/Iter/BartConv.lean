import Verif.Iter.SirtExact

/-!
# `bart` with several blocks (C160)

`bart` divides the update of a block by the length of the rays of that block in the pixel.  For a block
with one ray this cancels the length: all pixels of the ray are changed by the same amount.
-/

set_option linter.unusedSectionVars false

namespace Tomopy.Iter

open Filter Topology

section Real

variable {D : Dims} {g : Geom ℝ} {data : Mem ℝ}

theorem wres_nonneg (s : Nat) (u : Mem ℝ) : 0 ≤ wres D g data s u := by
  unfold wres
  refine List.sum_nonneg fun x hx => ?_
  rw [List.mem_map] at hx
  obtain ⟨q, -, rfl⟩ := hx
  split
  · exact div_nonneg (sq_nonneg _) (sumDist2_nonneg _)
  · exact le_rfl

theorem wres_eq_zero_iff (s : Nat) (u : Mem ℝ) : wres D g data s u = 0 ↔
    ∀ p < D.dt, ∀ d < D.dx, sumDist2 (g s p d) ≠ 0 →
      lineSum D.N s (g s p d) u = data (D.data s p d) := by
  unfold wres
  rw [sum_hits, Finset.sum_eq_zero_iff_of_nonneg fun q hq =>
    div_nonneg (sq_nonneg _) (sumDist2_nonneg _)]
  constructor
  · intro h p hp d hd hne
    have := h (p, d) (mem_hits.mpr ⟨⟨hp, hd⟩, hne⟩)
    rw [div_eq_zero_iff, or_iff_left hne, sq_eq_zero_iff, sub_eq_zero] at this
    exact this
  · intro h q hq
    have hm := mem_hits.mp hq
    rw [h _ hm.1.1 _ hm.1.2 hm.2, sub_self]
    simp

/-- **C160** (the part that holds): with one block, data that are the ray sums of some image, and the
condition of C154, the results of `bart` converge to an image with these ray sums.  Missing: more than
one block, where it is false (`bart_stuck`). -/
theorem bart_consistent_partial (hg : GeomOk D g) (hok : SirtOk D g) {z : Mem ℝ}
    (hz : Consistent D g data z)
    (ind : List Nat) (recon : Mem ℝ) :
    ∃ (x : ℕ → Mem ℝ) (u : Mem ℝ), (∀ k, bart D g data k 1 ind recon = some (x k)) ∧
      (∀ s < D.dy, ∀ n < D.N, Tendsto (fun k => x k (n + s * D.N)) atTop (𝓝 (u (n + s * D.N)))) ∧
      Consistent D g data u := by
  obtain ⟨x, u, h1, h2⟩ := sirt_limit hg hok data recon
  refine ⟨x, u, fun k => by rw [← sirt_eq_bart]; exact h1 k, fun s hs => (h2 s hs).1, fun s hs => ?_⟩
  simp only [eq_comm (a := data _)]
  rw [← wres_eq_zero_iff]
  refine le_antisymm (((h2 s hs).2.1 z).trans ?_) (wres_nonneg s u)
  exact ((wres_eq_zero_iff s z).mpr fun p hp d hd h => (hz s hs p hp d hd h).symm).le

/-- A block with a single ray changes all pixels of the ray by the same amount, whatever the lengths
of the ray in the pixels. -/
theorem bart_one_ray (hdx : D.dx = 1) {s p : Nat} (hp : p < D.dt) (h2 : sumDist2 (g s p 0) ≠ 0)
    (r : Mem ℝ) :
    ∃ r', pureBlock bartMethod (bartFin D) D g data s [p] r = some r' ∧
      ∀ n < D.N, r' (n + s * D.N) = r (n + s * D.N) + if lenIn (g s p 0) n ≠ 0 then
        (data (D.data s p 0) - lineSum D.N s (g s p 0) r) / sumDist2 (g s p 0) else 0 := by
  obtain ⟨r', h1, h3, -⟩ := bart_block (D := D) (g := g) (data := data) (s := s) (ps := [p])
    (by simp) (by simpa using hp) r
  refine ⟨r', h1, fun n hn => ?_⟩
  rw [h3 n hn, hdx]
  simp only [raysOf, List.flatMap_cons, List.flatMap_nil, List.range_one, List.map_cons, List.map_nil,
    List.append_nil, List.sum_cons, List.sum_nil, add_zero, if_pos h2]
  split
  · rename_i h
    rw [mul_div_assoc, div_self h, mul_one]
  · rfl

end Real

/-- **C160** (refutation): two pixels and two rays with the lengths `(1, 1)` and `(1, 2)`, and the data of
the image `(1, 0)`.  `sirt` converges to this image, but with the two angles in blocks of their own all
results of `bart` have two equal pixels, and one of their ray sums is off by at least `1 / 5`. -/
theorem bart_stuck :
    (∃ (x : ℕ → Mem ℝ) (u : Mem ℝ), (∀ k, sirt ⟨1, 2, 1, 2⟩ seG (fun _ => 1) k (fun _ => 0) = some (x k)) ∧
      (∀ n < 2, Tendsto (fun k => x k n) atTop (𝓝 (u n))) ∧ u 0 = 1 ∧ u 1 = 0) ∧
    ∀ k, ∃ r, bart ⟨1, 2, 1, 2⟩ seG (fun _ => 1) k 2 [0, 1] (fun _ => 0) = some r ∧ r 0 = r 1 ∧
      (1 / 5 ≤ |lineSum 2 0 (seG 0 0 0) r - 1| ∨ 1 / 5 ≤ |lineSum 2 0 (seG 0 1 0) r - 1|) := by
  have hs2 : ∀ s p d, sumDist2 (seG s p d) ≠ 0 := fun s p d => by
    have : (0 : ℝ) ≤ p := Nat.cast_nonneg p
    have : 0 < sumDist2 (seG s p d) := by
      simp only [seG, sumDist2, List.foldl_cons, List.foldl_nil]
      nlinarith
    exact this.ne'
  have hls : ∀ p r, lineSum 2 0 (seG 0 p 0) r = r 0 + r 1 * ((p : ℝ) + 1) := by
    intro p r
    simp [seG, lineSum]
  constructor
  · obtain ⟨x, u, h1, h2⟩ := bart_consistent_partial (data := fun _ => 1) seG_ok seG_sirtOk
      (z := fun i => if i = 0 then 1 else 0) (fun s hs p hp d hd _ => by
        obtain rfl : s = 0 := by have : s < 1 := hs; omega
        obtain rfl : d = 0 := by have : d < 1 := hd; omega
        show _ = lineSum 2 0 _ _
        rw [hls]; simp) [0] (fun _ => 0)
    refine ⟨x, u, h1, fun n hn => by simpa using h2.1 0 (by norm_num) n hn, ?_⟩
    have e0 := h2.2 0 (by norm_num) 0 (by norm_num) 0 (by norm_num) (hs2 _ _ _)
    have e1 := h2.2 0 (by norm_num) 1 (by norm_num) 0 (by norm_num) (hs2 _ _ _)
    rw [hls] at e0 e1
    norm_num at e0 e1
    constructor <;> linarith
  · have hblock : ∀ p < 2, ∀ r : Mem ℝ, r 0 = r 1 → ∃ r', pureBlock bartMethod (bartFin ⟨1, 2, 1, 2⟩)
        ⟨1, 2, 1, 2⟩ seG (fun _ => 1) 0 [p] r = some r' ∧ r' 0 = r' 1 := by
      intro p hp r hr
      obtain ⟨r', h1, h2⟩ := bart_one_ray (D := ⟨1, 2, 1, 2⟩) (g := seG) (data := fun _ => 1) rfl
        (s := 0) (p := p) hp (hs2 _ _ _) r
      refine ⟨r', h1, ?_⟩
      have hp0 : (0 : ℝ) ≤ p := Nat.cast_nonneg p
      have e0 := h2 0 (by norm_num)
      have e1 := h2 1 (by norm_num)
      have l0 : lenIn (seG 0 p 0) 0 ≠ 0 := by simp [seG, lenIn]
      have l1 : lenIn (seG 0 p 0) 1 ≠ 0 := by simp [seG, lenIn]; positivity
      rw [if_pos l0] at e0
      rw [if_pos l1] at e1
      simp only [Nat.zero_mul, Nat.add_zero] at e0 e1
      rw [e0, e1, hr]
    have hone : ∀ r : Mem ℝ, r 0 = r 1 → ∃ r', osIter bartMethod (bartFin ⟨1, 2, 1, 2⟩)
        ⟨1, 2, 1, 2⟩ seG (fun _ => 1) [[0], [1]] r = some r' ∧ r' 0 = r' 1 := by
      intro r hr
      obtain ⟨r1, h1, e1⟩ := hblock 0 (by norm_num) r hr
      obtain ⟨r2, h2, e2⟩ := hblock 1 (by norm_num) r1 e1
      refine ⟨r2, ?_, e2⟩
      rw [osIter_pure (bartFin_ok _) ⟨by decide, by decide⟩]
      simp [h1, h2]
    have hiter : ∀ k (r : Mem ℝ), r 0 = r 1 → ∃ r', iterM (osIter bartMethod (bartFin ⟨1, 2, 1, 2⟩)
        ⟨1, 2, 1, 2⟩ seG (fun _ => 1) [[0], [1]]) k r = some r' ∧ r' 0 = r' 1 := by
      intro k
      induction k with
      | zero => exact fun r hr => ⟨r, rfl, hr⟩
      | succ k ih =>
        intro r hr
        obtain ⟨r', h1, h2⟩ := hone r hr
        obtain ⟨r'', h4, h5⟩ := ih r' h2
        refine ⟨r'', ?_, h5⟩
        rw [iterM, h1]
        exact h4
    intro k
    obtain ⟨r, h1, h2⟩ := hiter k (fun _ => 0) rfl
    refine ⟨r, ?_, h2, ?_⟩
    · unfold bart osRun
      rw [if_neg (by simp), if_neg (by norm_num)]
      have e : (subsets 2 2).mapM (subsetProjs 2 [0, 1]) = some [[0], [1]] := by decide
      rw [e, Option.bind_some]
      exact h1
    · rw [hls, hls, ← h2]
      by_contra hc
      push Not at hc
      obtain ⟨c1, c2⟩ := hc
      rw [abs_lt] at c1 c2
      norm_num at c1 c2
      linarith [c1.1, c1.2, c2.1, c2.2]

/-- A case that meets the hypotheses of `bart_consistent_partial`. -/
example : Consistent ⟨1, 2, 1, 2⟩ seG (fun i => if i = 0 then 5 else 8) (fun i => if i = 0 then 2 else 3) ∧
    GeomOk ⟨1, 2, 1, 2⟩ seG ∧ SirtOk ⟨1, 2, 1, 2⟩ seG := by
  refine ⟨fun s hs p hp d hd _ => ?_, seG_ok, seG_sirtOk⟩
  obtain rfl : s = 0 := by have : s < 1 := hs; omega
  obtain rfl : d = 0 := by have : d < 1 := hd; omega
  have hp' : p < 2 := hp
  interval_cases p <;> simp [seG, lineSum, Dims.data] <;> norm_num

end Tomopy.Iter
