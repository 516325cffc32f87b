import Verif.Iter.EmConv

/-!
# `mlem` converges to a most likely image (C152)
-/

set_option linter.unusedSectionVars false

namespace Tomopy.Iter

open Filter Topology

section Real

variable {D : Dims} {g : Geom ℝ} {data : Mem ℝ}

/-- Lengths of the rays that hit the image. -/
noncomputable def emA (D : Dims) (g : Geom ℝ) (s : Nat) : {q // q ∈ hits D g s} → Fin D.N → ℝ :=
  fun q n => lenIn (g s q.1.1 q.1.2) n

/-- Slice `s` of an image. -/
def emX (D : Dims) (s : Nat) (r : Mem ℝ) : Fin D.N → ℝ := fun n => r (n + s * D.N)

theorem ap_emA (hg : GeomOk D g) {s : Nat} (hs : s < D.dy) (r : Mem ℝ) (q : {q // q ∈ hits D g s}) :
    Em.ap (emA D g s) (emX D s r) q = lineSum D.N s (g s q.1.1 q.1.2) r := by
  have hm := mem_hits.mp q.2
  rw [lineSum_eq_sum_lenIn fun e he => (hg s hs _ hm.1.1 _ hm.1.2 e he).1]
  exact Fin.sum_univ_eq_sum_range (fun n => r (n + s * D.N) * lenIn (g s q.1.1 q.1.2) n) D.N

theorem sens_emA (s : Nat) (n : Fin D.N) : Em.sens (emA D g s) n =
    ((raysOf D.dx (List.range D.dt)).map fun q => lenIn (g s q.1 q.2) n).sum := by
  rw [sens_eq]
  exact Finset.sum_coe_sort (hits D g s) fun q => lenIn (g s q.1 q.2) n

theorem lik_emA (hg : GeomOk D g) {s : Nat} (hs : s < D.dy) (r : Mem ℝ) :
    Em.lik (emA D g s) (fun q => data (D.data s q.1.1 q.1.2)) (emX D s r) = logLik D g data s r := by
  unfold Em.lik logLik
  rw [sum_hits, ← Finset.sum_coe_sort (hits D g s)]
  exact Finset.sum_congr rfl fun q _ => by rw [ap_emA hg hs]

/-- **C152**: from positive data and a positive image, the results of `mlem` converge, and no image
without negative pixels makes the data more likely than the limit. -/
theorem mlem_converges (hg : GeomOk D g) (hd : PosData D data) {recon : Mem ℝ} (hr : PosImage D recon) :
    ∃ (out : ℕ → Mem ℝ) (u : Mem ℝ), (∀ k, mlem D g data k recon = some (out k)) ∧
      ∀ s < D.dy, (∀ n < D.N, Tendsto (fun k => out k (n + s * D.N)) atTop (𝓝 (u (n + s * D.N)))) ∧
        (∀ n < D.N, 0 ≤ u (n + s * D.N)) ∧
        (∀ p < D.dt, ∀ d < D.dx, sumDist2 (g s p d) ≠ 0 → 0 < lineSum D.N s (g s p d) u) ∧
        ∀ u' : Mem ℝ, (∀ n < D.N, 0 ≤ u' (n + s * D.N)) →
          (∀ p < D.dt, ∀ d < D.dx, sumDist2 (g s p d) ≠ 0 → 0 < lineSum D.N s (g s p d) u') →
          logLik D g data s u' ≤ logLik D g data s u := by
  choose out hout hpos using fun k => mlem_positive (num_iter := k) hg hd hr
  have hrun : ∀ s, s < D.dy → Em.Run (emA D g s) (fun q => data (D.data s q.1.1 q.1.2))
      (fun k => emX D s (out k)) := by
    intro s hs
    choose r' h1 _ h3 using fun k => mlem_one hg hd (hpos k)
    have e : ∀ k, r' k = out (k + 1) := by
      intro k
      have := hout (k + 1)
      rw [mlem_succ, hout k, Option.bind_some, h1 k] at this
      exact Option.some.inj this
    simp only [e] at h3
    have hone := fun k n (hn : n < D.N) => h3 k s hs n hn
    refine ⟨?_, ?_, ?_, ?_, ?_, ?_⟩
    · intro q n
      have hm := mem_hits.mp q.2
      exact lenIn_nonneg (hg s hs _ hm.1.1 _ hm.1.2) n
    · intro q
      by_contra hn
      push Not at hn
      have h1 := line_pos hg hs (hpos 0) q.1 q.2
      have h2 : ∑ n ∈ Finset.range D.N, out 0 (n + s * D.N) * lenIn (g s q.1.1 q.1.2) n ≤ 0 :=
        Finset.sum_nonpos fun n hn' => mul_nonpos_of_nonneg_of_nonpos
          (hpos 0 s hs n (Finset.mem_range.mp hn')).le (hn ⟨n, Finset.mem_range.mp hn'⟩)
      linarith
    · intro q
      have hm := mem_hits.mp q.2
      exact hd s hs _ hm.1.1 _ hm.1.2
    · intro k n
      exact hpos k s hs n n.2
    · intro k n
      have h1 := (hone k n n.2).1
      rw [← sens_emA, sum_hits, ← Finset.sum_coe_sort (hits D g s)] at h1
      refine h1.trans ?_
      congr 1
      exact Finset.sum_congr rfl fun q _ => by rw [ap_emA hg hs]; rfl
    · intro k n h0
      refine (hone k n n.2).2 fun q hq => ?_
      by_contra hne
      have hm := mem_raysOf.mp hq
      rw [List.mem_range] at hm
      have hq' : q ∈ hits D g s := mem_hits.mpr ⟨hm, sumDist2_ne_of_lenIn hne⟩
      have := (Finset.sum_eq_zero_iff_of_nonneg (f := fun q => emA D g s q n) (fun q _ => by
        have hm := mem_hits.mp q.2
        exact lenIn_nonneg (hg s hs _ hm.1.1 _ hm.1.2) n)).mp h0 ⟨q, hq'⟩ (Finset.mem_univ _)
      exact hne this
  have hz : ∀ s, ∃ z : Fin D.N → ℝ, s < D.dy → (∀ i, 0 ≤ z i) ∧ (∀ j, 0 < Em.ap (emA D g s) z j) ∧
      (∀ i, z i * Em.sens (emA D g s) i =
        z i * Em.quot (emA D g s) (fun q => data (D.data s q.1.1 q.1.2)) z i) ∧
      (∀ i, Em.quot (emA D g s) (fun q => data (D.data s q.1.1 q.1.2)) z i ≤ Em.sens (emA D g s) i) ∧
      Tendsto (fun k => emX D s (out k)) atTop (𝓝 z) := by
    intro s
    by_cases hs : s < D.dy
    · obtain ⟨z, h⟩ := (hrun s hs).converges
      exact ⟨z, fun _ => h⟩
    · exact ⟨0, fun h => absurd h hs⟩
  choose z hz using hz
  obtain ⟨u, hu⟩ : ∃ u : Mem ℝ, ∀ s, emX D s u = z s := by
    refine ⟨fun i => if h : i % D.N < D.N then z (i / D.N) ⟨i % D.N, h⟩ else 0, fun s => ?_⟩
    funext n
    have e1 : ((n : Nat) + s * D.N) / D.N = s := by
      rw [Nat.mul_comm, Nat.add_mul_div_left _ _ (by have := n.2; omega), Nat.div_eq_of_lt n.2, Nat.zero_add]
    have e2 : ((n : Nat) + s * D.N) % D.N = n := by
      rw [Nat.add_mul_mod_self_right, Nat.mod_eq_of_lt n.2]
    unfold emX
    simp only [e1, e2, dif_pos n.2]
  refine ⟨out, u, hout, fun s hs => ?_⟩
  obtain ⟨z0, zp, zf, zq, zt⟩ := hz s hs
  rw [← hu s] at z0 zp zf zq zt
  refine ⟨fun n hn => (tendsto_pi_nhds.mp zt) ⟨n, hn⟩, fun n hn => z0 ⟨n, hn⟩, fun p hp d hd' hne => ?_,
    fun u' hu0 hup => ?_⟩
  · have := zp ⟨(p, d), mem_hits.mpr ⟨⟨hp, hd'⟩, hne⟩⟩
    rwa [ap_emA hg hs] at this
  · rw [← lik_emA hg hs, ← lik_emA hg hs]
    refine Em.maximises (hrun s hs).b0 zp zf zq (fun n => hu0 n n.2) fun q => ?_
    rw [ap_emA hg hs]
    have hm := mem_hits.mp q.2
    exact hup _ hm.1.1 _ hm.1.2 hm.2

/-- **C153** (the part that holds): with a single block that holds all angles (`num_block = 1`,
`ind_block = [0]`, as `mlem` sets them) the results of `osem` converge to a most likely image.
Missing: more than one block, where it is false (`osem_not_most_likely`). -/
theorem osem_converges_partial (hg : GeomOk D g) (hd : PosData D data) {recon : Mem ℝ} (hr : PosImage D recon) :
    ∃ (out : ℕ → Mem ℝ) (u : Mem ℝ), (∀ k, osem D g data k 1 [0] recon = some (out k)) ∧
      ∀ s < D.dy, (∀ n < D.N, Tendsto (fun k => out k (n + s * D.N)) atTop (𝓝 (u (n + s * D.N)))) ∧
        (∀ n < D.N, 0 ≤ u (n + s * D.N)) ∧
        ∀ u' : Mem ℝ, (∀ n < D.N, 0 ≤ u' (n + s * D.N)) →
          (∀ p < D.dt, ∀ d < D.dx, sumDist2 (g s p d) ≠ 0 → 0 < lineSum D.N s (g s p d) u') →
          logLik D g data s u' ≤ logLik D g data s u := by
  obtain ⟨out, u, h1, h2⟩ := mlem_converges hg hd hr
  exact ⟨out, u, h1, fun s hs => ⟨(h2 s hs).1, (h2 s hs).2.1, (h2 s hs).2.2.2⟩⟩

end Real

/-! ## A case that meets the hypotheses, and one that `osem` does not solve -/

/-- One pixel seen at two angles; the two measured values differ. -/
def emG : Geom ℝ := fun _ _ _ => [(0, 1)]

theorem emG_ok : GeomOk ⟨1, 2, 1, 1⟩ emG := by
  intro s _ p _ d _ e he
  simp only [emG, List.mem_singleton] at he
  subst he
  exact ⟨by norm_num, zero_le_one⟩

example : ∃ (out : ℕ → Mem ℝ) (u : Mem ℝ),
    (∀ k, mlem ⟨1, 2, 1, 1⟩ emG (fun i => (i : ℝ) + 1) k (fun _ => 5) = some (out k)) ∧
    Tendsto (fun k => out k 0) atTop (𝓝 (u 0)) := by
  obtain ⟨out, u, h1, h2⟩ := mlem_converges (data := fun i => (i : ℝ) + 1) emG_ok
    (fun _ _ _ _ _ _ => by positivity) (recon := fun _ => 5) (fun _ _ _ _ => by norm_num)
  exact ⟨out, u, h1, by simpa using (h2 0 (by norm_num)).1 0 (by norm_num)⟩

/-- **C153** (refutation): one pixel seen at two angles with different values `a ≠ b`, each angle in
its own block.  Every number of iterations of `osem` gives `b`, although the pixel `(a + b) / 2` makes
the data more likely. -/
theorem osem_not_most_likely {a b c : ℝ} (ha : 0 < a) (hb : 0 < b) (hab : a ≠ b) (hc : 0 < c) (k : Nat) :
    (∃ out, osem ⟨1, 2, 1, 1⟩ emG (fun i => if i = 0 then a else b) (k + 1) 2 [0, 1] (fun _ => c) = some out ∧
      out 0 = b) ∧
    ∀ out : Mem ℝ, out 0 = b →
      logLik ⟨1, 2, 1, 1⟩ emG (fun i => if i = 0 then a else b) 0 out <
        logLik ⟨1, 2, 1, 1⟩ emG (fun i => if i = 0 then a else b) 0 (fun _ => (a + b) / 2) := by
  have hd : PosData ⟨1, 2, 1, 1⟩ (fun i => if i = 0 then a else b) := by
    intro s _ p _ d _
    simp only
    split
    · exact ha
    · exact hb
  have hs2 : ∀ s p d, sumDist2 (emG s p d) ≠ 0 := fun s p d => by simp [emG, sumDist2]
  constructor
  · -- one iteration
    have hone : ∀ r : Mem ℝ, PosImage ⟨1, 2, 1, 1⟩ r → ∃ r', osIter osemMethod (osemFin ⟨1, 2, 1, 1⟩)
        ⟨1, 2, 1, 1⟩ emG (fun i => if i = 0 then a else b) [[0], [1]] r = some r' ∧
        PosImage ⟨1, 2, 1, 1⟩ r' ∧ r' 0 = b := by
      intro r hr
      obtain ⟨r1, h1, p1, -⟩ := osem_block emG_ok hd (s := 0) (ps := [0]) (by norm_num) (by simp)
        (by simp) hr
      obtain ⟨r2, h2, p2, e2, -⟩ := osem_block emG_ok hd (s := 0) (ps := [1]) (by norm_num) (by simp)
        (by simp) p1
      refine ⟨r2, ?_, p2, ?_⟩
      · rw [osIter_pure (osemFin_ok _) ⟨by decide, by decide⟩]
        simp [h1, h2]
      · have := e2 0 (by norm_num)
        have hr1 : 0 < r1 0 := by simpa using p1 0 (by norm_num) 0 (by norm_num)
        simp [raysOf, emG, lenIn, lineSum, sumDist2, Dims.data] at this
        rw [this]
        field_simp
    have hiter : ∀ k r, PosImage ⟨1, 2, 1, 1⟩ r → ∃ r', iterM (osIter osemMethod (osemFin ⟨1, 2, 1, 1⟩)
        ⟨1, 2, 1, 1⟩ emG (fun i => if i = 0 then a else b) [[0], [1]]) (k + 1) r = some r' ∧ r' 0 = b := by
      intro k
      induction k with
      | zero =>
        intro r hr
        obtain ⟨r', h1, -, h3⟩ := hone r hr
        exact ⟨r', by simp [iterM, h1], h3⟩
      | succ k ih =>
        intro r hr
        obtain ⟨r', h1, h2, -⟩ := hone r hr
        obtain ⟨r'', h4, h5⟩ := ih r' h2
        refine ⟨r'', ?_, h5⟩
        rw [iterM, h1]
        exact h4
    obtain ⟨r', h1, h2⟩ := hiter k (fun _ => c) (fun _ _ _ _ => hc)
    refine ⟨r', ?_, h2⟩
    unfold osem osRun
    rw [if_neg (by simp), if_neg (by norm_num)]
    have e : (subsets 2 2).mapM (subsetProjs 2 [0, 1]) = some [[0], [1]] := by decide
    rw [e, Option.bind_some]
    exact h1
  · intro out ho
    unfold logLik
    simp [raysOf, emG, lineSum, sumDist2, Dims.data, ho, List.range_succ]
    have hm : 0 < (a + b) / 2 := by linarith
    have hne : b / ((a + b) / 2) ≠ 1 := by
      intro h
      rw [div_eq_one_iff_eq hm.ne'] at h
      exact hab (by linarith)
    have hl := Real.log_lt_sub_one_of_pos (div_pos hb hm) hne
    rw [Real.log_div hb.ne' hm.ne'] at hl
    have h2 := mul_lt_mul_of_pos_left hl (show 0 < a + b by linarith)
    have e : (a + b) * (b / ((a + b) / 2) - 1) = b - a := by
      have : a + b ≠ 0 := by linarith
      field_simp
      ring
    rw [e] at h2
    linarith

end Tomopy.Iter
