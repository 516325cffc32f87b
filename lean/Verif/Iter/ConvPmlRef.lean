import Verif.Iter.ConvPmlRun

/-!
# No penalised likelihood for larger grids (C141)
-/

set_option linter.unusedSectionVars false

namespace Tomopy.Iter

open Filter Topology

/-- The image with the pixels `x`. -/
def imgOf {N : Nat} (x : Fin N → ℝ) : Mem ℝ := fun i => if h : i < N then x ⟨i, h⟩ else 0

theorem imgOf_lt {N : Nat} (x : Fin N → ℝ) (i : Fin N) : imgOf x i = x i := by
  unfold imgOf
  rw [dif_pos i.isLt]

theorem sum_imgOf {N : Nat} (x : Fin N → ℝ) (f : Nat → ℝ) :
    ∑ n ∈ Finset.range N, imgOf x n * f n = ∑ i : Fin N, x i * f i := by
  rw [Finset.sum_range]
  exact Finset.sum_congr rfl fun i _ => by rw [imgOf_lt]

/-- The derivative of the penalty in pixel `n` that the iteration uses. -/
noncomputable def drift (gv : ℝ → ℝ) (beta : ℝ) (ngx ngy : Nat) {N : Nat} (x : Fin N → ℝ)
    (n : Fin N) : ℝ :=
  ∑ k : Fin N, 2 * beta * gridW ngx ngy n k * (gv (x n - x k) * (x n - x k))

theorem drift_symm_of_gradient {gv : ℝ → ℝ} {beta : ℝ} (hb : 0 < beta) (hgv : ContinuousAt gv 0)
    (h0 : gv 0 ≠ 0) {ngx ngy N : Nat} {R : (Fin N → ℝ) → ℝ}
    (hR : ∀ᶠ x in 𝓝 (fun _ : Fin N => (1 : ℝ)), HasFDerivAt R
      (∑ n : Fin N, drift gv beta ngx ngy x n • (ContinuousLinearMap.proj n : (Fin N → ℝ) →L[ℝ] ℝ)) x)
    (i j : Fin N) (hij : i ≠ j) : gridW ngx ngy i j = gridW ngx ngy j i := by
  have hh : HasDerivAt (fun t => gv t * t) (gv 0) 0 := by
    rw [hasDerivAt_iff_tendsto_slope]
    have h1 : Tendsto gv (𝓝[≠] 0) (𝓝 (gv 0)) := hgv.tendsto.mono_left nhdsWithin_le_nhds
    refine h1.congr' ?_
    filter_upwards [self_mem_nhdsWithin] with t ht
    have ht : t ≠ 0 := ht
    rw [slope_def_field]
    field_simp
    ring
  have hdrift : ∀ n : Fin N, HasFDerivAt (fun x => drift gv beta ngx ngy x n)
      (∑ k : Fin N, (2 * beta * gridW ngx ngy n k) • (gv 0 •
        ((ContinuousLinearMap.proj n : (Fin N → ℝ) →L[ℝ] ℝ) - ContinuousLinearMap.proj k)))
      (fun _ => (1 : ℝ)) := by
    intro n
    unfold drift
    refine HasFDerivAt.fun_sum fun k _ => ?_
    refine HasFDerivAt.const_mul ?_ _
    have h1 : HasFDerivAt (fun x : Fin N → ℝ => x n - x k)
        ((ContinuousLinearMap.proj n : (Fin N → ℝ) →L[ℝ] ℝ) - ContinuousLinearMap.proj k)
        (fun _ => (1 : ℝ)) :=
      ((ContinuousLinearMap.proj n : (Fin N → ℝ) →L[ℝ] ℝ) - ContinuousLinearMap.proj k).hasFDerivAt
    have hh' : HasDerivAt (fun t => gv t * t) (gv 0)
        ((fun x : Fin N → ℝ => x n - x k) fun _ => (1 : ℝ)) := by simpa using hh
    exact HasDerivAt.comp_hasFDerivAt (h₂ := fun t => gv t * t)
      (f := fun x : Fin N → ℝ => x n - x k) (fun _ => (1 : ℝ)) hh' h1
  have hf' : HasFDerivAt (fun x => ∑ n : Fin N, drift gv beta ngx ngy x n •
      (ContinuousLinearMap.proj n : (Fin N → ℝ) →L[ℝ] ℝ))
      (∑ n : Fin N, (∑ k : Fin N, (2 * beta * gridW ngx ngy n k) • (gv 0 •
        ((ContinuousLinearMap.proj n : (Fin N → ℝ) →L[ℝ] ℝ) -
          ContinuousLinearMap.proj k))).smulRight
        (ContinuousLinearMap.proj n : (Fin N → ℝ) →L[ℝ] ℝ)) (fun _ => (1 : ℝ)) :=
    HasFDerivAt.fun_sum fun n _ => HasFDerivAt.smul_const (hdrift n)
      (ContinuousLinearMap.proj n : (Fin N → ℝ) →L[ℝ] ℝ)
  have hs := second_derivative_symmetric_of_eventually_of_real hR hf' (Pi.single i 1) (Pi.single j 1)
  have hval : ∀ i j : Fin N, i ≠ j → (∑ n : Fin N, (∑ k : Fin N, (2 * beta * gridW ngx ngy n k) •
      (gv 0 • ((ContinuousLinearMap.proj n : (Fin N → ℝ) →L[ℝ] ℝ) -
          ContinuousLinearMap.proj k))).smulRight
        (ContinuousLinearMap.proj n : (Fin N → ℝ) →L[ℝ] ℝ)) (Pi.single i 1) (Pi.single j 1) =
      -(2 * beta * gridW ngx ngy j i * gv 0) := by
    intro i j hij
    simp only [sum_apply, ContinuousLinearMap.smulRight_apply,
      smul_apply, sub_apply, ContinuousLinearMap.proj_apply,
      smul_eq_mul]
    rw [Finset.sum_eq_single j]
    · rw [Pi.single_eq_same, mul_one, Finset.sum_eq_single i]
      · rw [Pi.single_eq_same, Pi.single_eq_of_ne hij.symm]
        ring
      · intro k _ hk
        rw [Pi.single_eq_of_ne hij.symm, Pi.single_eq_of_ne hk]
        ring
      · simp
    · intro n _ hn
      rw [Pi.single_eq_of_ne hn, mul_zero]
    · simp
  rw [hval i j hij, hval j i hij.symm] at hs
  have h2 : (2 * beta * gv 0) * gridW ngx ngy i j = (2 * beta * gv 0) * gridW ngx ngy j i := by
    linarith
  exact mul_left_cancel₀ (mul_ne_zero (by linarith) h0) h2

/-- **C141** (refutation): take a grid of at least 2 x 2 but not exactly 2 x 2 pixels, and a geometry
in which the rays determine the image.  There is no differentiable penalty `R` such that the images
that `pml_*` leaves unchanged are local maxima of the likelihood minus `R`. -/
theorem pml_no_penalty {gam : ℝ → Option ℝ} {gv : ℝ → ℝ} {beta : ℝ} (hgam : ∀ x, gam x = some (gv x))
    (hgv : ∀ x, 0 < gv x) (hgc : ContinuousAt gv 0) (hb : 0 < beta) {ngx ngy dt dx : Nat}
    (hx : 2 ≤ ngx) (hy : 2 ≤ ngy) (hne : ¬ (ngx = 2 ∧ ngy = 2)) {g : Geom ℝ}
    (hg : GeomOk ⟨1, dt, dx, ngx * ngy⟩ g)
    (hrank : ∀ k < ngx * ngy, ∃ c : Nat × Nat → ℝ, ∀ n < ngx * ngy,
      ((raysOf dx (List.range dt)).map fun q => lenIn (g 0 q.1 q.2) n * c q).sum =
        if n = k then 1 else 0) :
    ¬ ∃ R : (Fin (ngx * ngy) → ℝ) → ℝ, (∀ x, (∀ i, 0 < x i) → DifferentiableAt ℝ R x) ∧
      ∀ (x : Fin (ngx * ngy) → ℝ) (data : Mem ℝ), (∀ i, 0 < x i) →
        PosData ⟨1, dt, dx, ngx * ngy⟩ data →
        (∃ r', pml gam beta ⟨1, dt, dx, ngx * ngy⟩ ngx ngy g data 1 (imgOf x) = some r' ∧
          SameImage ⟨1, dt, dx, ngx * ngy⟩ r' (imgOf x)) →
        IsLocalMax (fun y => logLik ⟨1, dt, dx, ngx * ngy⟩ g data 0 (imgOf y) - R y) x := by
  rintro ⟨R, hdiff, hmax⟩
  obtain ⟨D, hD⟩ : ∃ D : Dims, D = ⟨1, dt, dx, ngx * ngy⟩ := ⟨_, rfl⟩
  obtain ⟨N, hN⟩ : ∃ N, N = ngx * ngy := ⟨_, rfl⟩
  have hNpos : 0 < ngx * ngy := Nat.mul_pos (by omega) (by omega)
  have hDN : D.N = ngx * ngy := by rw [hD]
  have hDdt : D.dt = dt := by rw [hD]
  have hDdx : D.dx = dx := by rw [hD]
  have hDy : D.dy = 1 := by rw [hD]
  rw [← hD] at hg hmax
  -- rays exist
  have hpos : 0 < dt ∧ 0 < dx := by
    by_contra hc
    obtain ⟨c, hc'⟩ := hrank 0 hNpos
    have h := hc' 0 hNpos
    have : raysOf dx (List.range dt) = [] := by
      rw [List.eq_nil_iff_forall_not_mem]
      intro q hq
      have := mem_raysOf.mp hq
      rw [List.mem_range] at this
      omega
    rw [this] at h
    simp at h
  -- the combination of rays for every pixel
  choose! c hc using hrank
  have hc' : ∀ k < ngx * ngy, ∀ n < ngx * ngy,
      ∑ q ∈ hits D g 0, lenIn (g 0 q.1 q.2) n * c k q = if n = k then 1 else 0 := by
    intro k hk n hn
    rw [← hc k hk n hn, ← sum_hits (D := D), hDdx, hDdt]
    congr 1
    apply List.map_congr_left
    intro q _
    split
    · rfl
    · rename_i h
      have : lenIn (g 0 q.1 q.2) n = 0 := by
        by_contra h2
        exact h (sumDist2_ne_of_lenIn h2)
      rw [this, zero_mul]
  -- the multipliers
  obtain ⟨lam, hlam⟩ : ∃ lam : (Fin (ngx * ngy) → ℝ) → Nat × Nat → ℝ, ∀ x q,
      lam x q = ∑ k : Fin (ngx * ngy), c k q * drift gv beta ngx ngy x k := ⟨_, fun _ _ => rfl⟩
  have hlamA : ∀ x (n : Fin (ngx * ngy)),
      ∑ q ∈ hits D g 0, lenIn (g 0 q.1 q.2) n * lam x q = drift gv beta ngx ngy x n := by
    intro x n
    simp only [hlam, Finset.mul_sum]
    rw [Finset.sum_comm]
    rw [Finset.sum_eq_single n]
    · rw [← Finset.sum_congr rfl fun q _ => mul_assoc (lenIn (g 0 q.1 q.2) n) (c n q) _,
        ← Finset.sum_mul, hc' n n.isLt n n.isLt, if_pos rfl, one_mul]
    · intro k _ hk
      rw [← Finset.sum_congr rfl fun q _ => mul_assoc (lenIn (g 0 q.1 q.2) n) (c k q) _,
        ← Finset.sum_mul, hc' k k.isLt n n.isLt, if_neg, zero_mul]
      intro e
      exact hk (Fin.ext e).symm
    · simp
  have hcont : ∀ q, ContinuousAt (fun x => lam x q) fun _ => (1 : ℝ) := by
    intro q
    have e : (fun x => lam x q) = fun x => ∑ k : Fin (ngx * ngy), c k q *
        drift gv beta ngx ngy x k := by funext x; rw [hlam]
    rw [e]
    refine tendsto_finsetSum _ fun k _ => ?_
    refine Tendsto.const_mul _ ?_
    unfold drift
    refine tendsto_finsetSum _ fun l _ => ?_
    refine Tendsto.const_mul _ ?_
    have hsub : ContinuousAt (fun x : Fin (ngx * ngy) → ℝ => x k - x l) fun _ => (1 : ℝ) :=
      ((continuous_apply k).sub (continuous_apply l)).continuousAt
    have hg0 : ContinuousAt gv ((fun x : Fin (ngx * ngy) → ℝ => x k - x l) fun _ => (1 : ℝ)) := by
      simpa using hgc
    exact (ContinuousAt.comp (g := gv) (f := fun x : Fin (ngx * ngy) → ℝ => x k - x l) hg0 hsub).mul
      hsub
  have hlam1 : ∀ q, lam (fun _ => 1) q = 0 := by
    intro q
    rw [hlam]
    refine Finset.sum_eq_zero fun k _ => ?_
    unfold drift
    rw [Finset.sum_eq_zero, mul_zero]
    intro l _
    simp
  have hnear : ∀ᶠ x in 𝓝 (fun _ : Fin (ngx * ngy) => (1 : ℝ)),
      (∀ i, 0 < x i) ∧ ∀ q ∈ hits D g 0, -1 < lam x q := by
    refine Filter.Eventually.and ?_ ?_
    · rw [Filter.eventually_all]
      intro i
      exact (continuous_apply i).continuousAt.eventually (lt_mem_nhds (by norm_num))
    · rw [Filter.eventually_all_finset]
      intro q _
      exact (hcont q).eventually (lt_mem_nhds (by simp only [hlam1]; norm_num))
  have hgrad : ∀ᶠ x in 𝓝 (fun _ : Fin (ngx * ngy) => (1 : ℝ)), HasFDerivAt R
      (∑ n : Fin (ngx * ngy), drift gv beta ngx ngy x n •
        (ContinuousLinearMap.proj n : (Fin (ngx * ngy) → ℝ) →L[ℝ] ℝ)) x := by
    filter_upwards [hnear] with x hxx
    obtain ⟨hxp, hlx⟩ := hxx
    have himg : PosImage D (imgOf x) := by
      intro s hs n hn
      rw [hDy] at hs
      rw [hDN] at hn
      obtain rfl : s = 0 := by omega
      rw [Nat.zero_mul, Nat.add_zero]
      have := imgOf_lt x ⟨n, hn⟩
      simp only at this
      rw [this]
      exact hxp _
    -- the data
    obtain ⟨A, hA⟩ : ∃ A : Nat × Nat → ℝ, ∀ q, A q = ∑ n ∈ Finset.range D.N,
        imgOf x (n + 0 * D.N) * lenIn (g 0 q.1 q.2) n := ⟨_, fun _ => rfl⟩
    have hApos : ∀ q ∈ hits D g 0, 0 < A q := fun q hq => by
      rw [hA]
      exact line_pos hg (by omega) himg q hq
    obtain ⟨data, hdata⟩ : ∃ data : Mem ℝ, ∀ p < dt, ∀ d < dx, data (D.data 0 p d) =
        if (p, d) ∈ hits D g 0 then A (p, d) * (1 + lam x (p, d)) else 1 := by
      refine ⟨fun i => if (i / dx, i % dx) ∈ hits D g 0 then
        A (i / dx, i % dx) * (1 + lam x (i / dx, i % dx)) else 1, fun p _ d hd => ?_⟩
      have e : D.data 0 p d = d + p * dx := by
        unfold Dims.data
        rw [hDdx, Nat.zero_mul, Nat.zero_mul, Nat.add_zero]
      dsimp only
      rw [e, (pix_div_mod hd).1, (pix_div_mod hd).2]
    have hdhit : ∀ q ∈ hits D g 0, data (D.data 0 q.1 q.2) = A q * (1 + lam x q) := by
      intro q hq
      have hm := mem_hits.mp hq
      rw [hDdt, hDdx] at hm
      rw [hdata q.1 hm.1.1 q.2 hm.1.2, if_pos hq]
    have hpd : PosData D data := by
      intro s hs p hp d hd
      rw [hDy] at hs
      obtain rfl : s = 0 := by omega
      rw [hDdt] at hp
      rw [hDdx] at hd
      rw [hdata p hp d hd]
      split
      · rename_i h
        exact mul_pos (hApos _ h) (by linarith [hlx _ h])
      · exact one_pos
    have hratio : ∀ q ∈ hits D g 0, data (D.data 0 q.1 q.2) / A q = 1 + lam x q := by
      intro q hq
      rw [hdhit q hq, mul_div_cancel_left₀ _ (hApos q hq).ne']
    -- the image is not changed
    have hfix : ∃ r', pml gam beta D ngx ngy g data 1 (imgOf x) = some r' ∧
        SameImage D r' (imgOf x) := by
      obtain ⟨r', h1, h2, h3⟩ := pml_one hgam hgv hb hDN hx hy (by omega) (by omega) hg hpd himg
      refine ⟨r', h1, fun s hs j hj => ?_⟩
      have hs' := hs
      rw [hDy] at hs'
      obtain rfl : s = 0 := by omega
      refine ((h3 0 hs j hj _ (himg 0 hs j hj)).mp ?_).symm
      unfold StepEq
      congr 1
      have e1 : ∑ q ∈ hits D g 0, data (D.data 0 q.1 q.2) /
          (∑ n ∈ Finset.range D.N, imgOf x (n + 0 * D.N) * lenIn (g 0 q.1 q.2) n) *
            lenIn (g 0 q.1 q.2) j =
          ∑ q ∈ hits D g 0, (lenIn (g 0 q.1 q.2) j + lenIn (g 0 q.1 q.2) j * lam x q) :=
        Finset.sum_congr rfl fun q hq => by
          rw [← hA, hratio q hq]
          ring
      rw [e1, Finset.sum_add_distrib]
      congr 1
      have hj' := hj
      rw [hDN] at hj'
      rw [hlamA x ⟨j, hj'⟩]
      unfold pull drift
      rw [hDN, Finset.sum_range]
      refine Finset.sum_congr rfl fun k _ => ?_
      have e2 := imgOf_lt x ⟨j, hj'⟩
      have e3 := imgOf_lt x k
      simp only [Nat.zero_mul, Nat.add_zero] at e2 e3 ⊢
      rw [e2, e3]
      ring
    have hm := hmax x data hxp hpd hfix
    have hRx := (hdiff x hxp).hasFDerivAt
    refine hRx.congr_fderiv ?_
    ext v
    -- along the line in direction `v`
    have hline : HasDerivAt (fun t : ℝ => x + t • v) v 0 := by
      have := ((hasDerivAt_id (0 : ℝ)).smul_const v).const_add x
      simpa using this
    have hR1 : HasDerivAt (fun t : ℝ => R (x + t • v)) (fderiv ℝ R x v) 0 := by
      have h0 : x + (0 : ℝ) • v = x := by simp
      have hRx' : HasFDerivAt R (fderiv ℝ R x) ((fun t : ℝ => x + t • v) 0) := by
        simpa using hRx
      exact hRx'.comp_hasDerivAt (0 : ℝ) hline
    have hL1 : HasDerivAt (fun t : ℝ => logLik D g data 0 (imgOf (x + t • v)))
        (∑ n : Fin (ngx * ngy), drift gv beta ngx ngy x n * v n) 0 := by
      have e : (fun t : ℝ => logLik D g data 0 (imgOf (x + t • v))) = fun t =>
          ∑ q ∈ hits D g 0, (data (D.data 0 q.1 q.2) *
            Real.log (A q + t * ∑ i : Fin (ngx * ngy), v i * lenIn (g 0 q.1 q.2) i) -
            (A q + t * ∑ i : Fin (ngx * ngy), v i * lenIn (g 0 q.1 q.2) i)) := by
        funext t
        rw [logLik_eq hg (by omega)]
        refine Finset.sum_congr rfl fun q _ => ?_
        have e1 : ∑ n ∈ Finset.range D.N, imgOf (x + t • v) (n + 0 * D.N) *
            lenIn (g 0 q.1 q.2) n =
            A q + t * ∑ i : Fin (ngx * ngy), v i * lenIn (g 0 q.1 q.2) i := by
          rw [hA, hDN]
          simp only [Nat.zero_mul, Nat.add_zero]
          rw [sum_imgOf, sum_imgOf, Finset.mul_sum, ← Finset.sum_add_distrib]
          refine Finset.sum_congr rfl fun i _ => ?_
          simp only [Pi.add_apply, Pi.smul_apply, smul_eq_mul]
          ring
        rw [e1]
      rw [e]
      have hterm : ∀ q ∈ hits D g 0, HasDerivAt (fun t : ℝ => data (D.data 0 q.1 q.2) *
            Real.log (A q + t * ∑ i : Fin (ngx * ngy), v i * lenIn (g 0 q.1 q.2) i) -
            (A q + t * ∑ i : Fin (ngx * ngy), v i * lenIn (g 0 q.1 q.2) i))
          (∑ i : Fin (ngx * ngy), v i * (lenIn (g 0 q.1 q.2) i * lam x q)) 0 := by
        intro q hq
        have h1 : HasDerivAt (fun t : ℝ => A q + t *
            ∑ i : Fin (ngx * ngy), v i * lenIn (g 0 q.1 q.2) i)
            (∑ i : Fin (ngx * ngy), v i * lenIn (g 0 q.1 q.2) i) 0 := by
          have := ((hasDerivAt_id (0 : ℝ)).mul_const
            (∑ i : Fin (ngx * ngy), v i * lenIn (g 0 q.1 q.2) i)).const_add (A q)
          simpa using this
        have h2 := (h1.log (by simpa using (hApos q hq).ne')).const_mul (data (D.data 0 q.1 q.2))
        have h3 := h2.sub h1
        refine h3.congr_deriv ?_
        rw [zero_mul, add_zero, ← mul_div_assoc, mul_div_right_comm, hratio q hq]
        have : ∑ i : Fin (ngx * ngy), v i * (lenIn (g 0 q.1 q.2) i * lam x q) =
            (∑ i : Fin (ngx * ngy), v i * lenIn (g 0 q.1 q.2) i) * lam x q := by
          rw [Finset.sum_mul]
          exact Finset.sum_congr rfl fun i _ => by ring
        rw [this]
        ring
      have hsum := HasDerivAt.fun_sum hterm
      refine hsum.congr_deriv ?_
      rw [Finset.sum_comm]
      refine Finset.sum_congr rfl fun n _ => ?_
      rw [← Finset.mul_sum, hlamA]
      ring
    have hloc : IsLocalMax ((fun y => logLik D g data 0 (imgOf y) - R y) ∘
        fun t : ℝ => x + t • v) 0 := by
      refine IsLocalMax.comp_continuous ?_ hline.continuousAt
      simpa using hm
    have hz := hloc.hasDerivAt_eq_zero (hL1.sub hR1)
    simp only [sum_apply, smul_apply,
      ContinuousLinearMap.proj_apply, smul_eq_mul]
    linarith
  refine hne ((symGrid_iff hx hy).mp fun j hj k hk => ?_)
  by_cases e : j = k
  · rw [e]
  · exact drift_symm_of_gradient hb hgc (hgv 0).ne' hgrad ⟨j, hj⟩ ⟨k, hk⟩
      fun h => e (Fin.mk.inj h)

/-! ## The two methods -/

/-- **C141** (refutation for `pml_quad`). -/
theorem pml_quad_no_penalty {beta : ℝ} (hb : 0 < beta) {ngx ngy dt dx : Nat}
    (hx : 2 ≤ ngx) (hy : 2 ≤ ngy) (hne : ¬ (ngx = 2 ∧ ngy = 2)) {g : Geom ℝ}
    (hg : GeomOk ⟨1, dt, dx, ngx * ngy⟩ g)
    (hrank : ∀ k < ngx * ngy, ∃ c : Nat × Nat → ℝ, ∀ n < ngx * ngy,
      ((raysOf dx (List.range dt)).map fun q => lenIn (g 0 q.1 q.2) n * c q).sum =
        if n = k then 1 else 0) :
    ¬ ∃ R : (Fin (ngx * ngy) → ℝ) → ℝ, (∀ x, (∀ i, 0 < x i) → DifferentiableAt ℝ R x) ∧
      ∀ (x : Fin (ngx * ngy) → ℝ) (data : Mem ℝ), (∀ i, 0 < x i) →
        PosData ⟨1, dt, dx, ngx * ngy⟩ data →
        (∃ r', pml gammaQuad beta ⟨1, dt, dx, ngx * ngy⟩ ngx ngy g data 1 (imgOf x) = some r' ∧
          SameImage ⟨1, dt, dx, ngx * ngy⟩ r' (imgOf x)) →
        IsLocalMax (fun y => logLik ⟨1, dt, dx, ngx * ngy⟩ g data 0 (imgOf y) - R y) x :=
  pml_no_penalty (gv := fun _ => 1) (fun _ => rfl) (fun _ => one_pos) continuousAt_const hb hx hy
    hne hg hrank

/-- **C141** (refutation for `pml_hybrid`). -/
theorem pml_hybrid_no_penalty {beta delta : ℝ} (hb : 0 < beta) (hdelta : delta ≠ 0)
    {ngx ngy dt dx : Nat}
    (hx : 2 ≤ ngx) (hy : 2 ≤ ngy) (hne : ¬ (ngx = 2 ∧ ngy = 2)) {g : Geom ℝ}
    (hg : GeomOk ⟨1, dt, dx, ngx * ngy⟩ g)
    (hrank : ∀ k < ngx * ngy, ∃ c : Nat × Nat → ℝ, ∀ n < ngx * ngy,
      ((raysOf dx (List.range dt)).map fun q => lenIn (g 0 q.1 q.2) n * c q).sum =
        if n = k then 1 else 0) :
    ¬ ∃ R : (Fin (ngx * ngy) → ℝ) → ℝ, (∀ x, (∀ i, 0 < x i) → DifferentiableAt ℝ R x) ∧
      ∀ (x : Fin (ngx * ngy) → ℝ) (data : Mem ℝ), (∀ i, 0 < x i) →
        PosData ⟨1, dt, dx, ngx * ngy⟩ data →
        (∃ r', pml (gammaHybrid delta) beta ⟨1, dt, dx, ngx * ngy⟩ ngx ngy g data 1 (imgOf x) =
          some r' ∧ SameImage ⟨1, dt, dx, ngx * ngy⟩ r' (imgOf x)) →
        IsLocalMax (fun y => logLik ⟨1, dt, dx, ngx * ngy⟩ g data 0 (imgOf y) - R y) x := by
  refine pml_no_penalty (gammaHybrid_pos hdelta).1 (gammaHybrid_pos hdelta).2 ?_ hb hx hy hne hg
    hrank
  have : Continuous fun t : ℝ => 1 / (1 + |t / delta|) :=
    continuous_const.div (continuous_const.add (continuous_abs.comp (continuous_id.div_const _)))
      fun t => by positivity
  exact this.continuousAt

/-- **C141** (partial): on 2 x 2 pixels `pml_quad` never lowers the likelihood minus
`beta / 2` times the weighted squares of the differences of neighbours. -/
theorem pml_quad_likelihood_partial {beta : ℝ} (hb : 0 < beta) {D : Dims} (hN : D.N = 2 * 2)
    (hdy : 0 < D.dy) (hdt : 0 < D.dt) (hdx : 0 < D.dx) {g : Geom ℝ} {data : Mem ℝ}
    (hg : GeomOk D g) (hd : PosData D data) {recon : Mem ℝ} (hr : PosImage D recon) {k l : Nat}
    (hkl : k ≤ l) :
    ∃ r r', pml gammaQuad beta D 2 2 g data k recon = some r ∧ PosImage D r ∧
      pml gammaQuad beta D 2 2 g data l recon = some r' ∧ PosImage D r' ∧
      ∀ s < D.dy, penLik (fun t => t ^ 2) beta D 2 2 g data s r ≤
        penLik (fun t => t ^ 2) beta D 2 2 g data s r' :=
  pml_likelihood_partial (gv := fun _ => 1) (fun _ => rfl) potential_quad hb hN le_rfl le_rfl
    ((symGrid_iff le_rfl le_rfl).mpr ⟨rfl, rfl⟩) hdy hdt hdx hg hd hr hkl

/-- **C141** (partial): the same for `pml_hybrid` with its penalty. -/
theorem pml_hybrid_likelihood_partial {beta delta : ℝ} (hb : 0 < beta) (hdelta : 0 < delta)
    {D : Dims} (hN : D.N = 2 * 2)
    (hdy : 0 < D.dy) (hdt : 0 < D.dt) (hdx : 0 < D.dx) {g : Geom ℝ} {data : Mem ℝ}
    (hg : GeomOk D g) (hd : PosData D data) {recon : Mem ℝ} (hr : PosImage D recon) {k l : Nat}
    (hkl : k ≤ l) :
    ∃ r r', pml (gammaHybrid delta) beta D 2 2 g data k recon = some r ∧ PosImage D r ∧
      pml (gammaHybrid delta) beta D 2 2 g data l recon = some r' ∧ PosImage D r' ∧
      ∀ s < D.dy, penLik (phiHybrid delta) beta D 2 2 g data s r ≤
        penLik (phiHybrid delta) beta D 2 2 g data s r' :=
  pml_likelihood_partial (gammaHybrid_pos hdelta.ne').1 (potential_hybrid hdelta) hb hN le_rfl le_rfl
    ((symGrid_iff le_rfl le_rfl).mpr ⟨rfl, rfl⟩) hdy hdt hdx hg hd hr hkl

section Examples

/-- One ray of length 2 through every pixel: the rays determine the image. -/
private def ownRay : Geom ℝ := fun _ _ d => [(d, 2)]

private theorem ownRay_ok (N : Nat) : GeomOk ⟨1, 1, N, N⟩ ownRay := by
  intro s _ p _ d hd e he
  unfold ownRay at he
  rw [List.mem_singleton] at he
  subst he
  exact ⟨hd, by norm_num⟩

/-- The hypothesis of `pml_no_penalty` on the rays, for grids of any size. -/
example (N : Nat) : ∀ k < N, ∃ c : Nat × Nat → ℝ, ∀ n < N,
    ((raysOf N (List.range 1)).map fun q => lenIn (ownRay 0 q.1 q.2) n * c q).sum =
      if n = k then 1 else 0 := by
  intro k hk
  refine ⟨fun q => if q.2 = k then 1 / 2 else 0, fun n hn => ?_⟩
  have e : raysOf N (List.range 1) = (List.range N).map fun d => (0, d) := by
    simp [raysOf]
  rw [e, List.map_map]
  have e2 : (List.range N).map ((fun q => lenIn (ownRay 0 q.1 q.2) n *
      if q.2 = k then (1 / 2 : ℝ) else 0) ∘ fun d => (0, d)) =
      (List.range N).map fun d => if d = k then (if n = k then (1 : ℝ) else 0) else 0 := by
    apply List.map_congr_left
    intro d _
    by_cases h : d = k
    · subst h
      by_cases h2 : n = d
      · subst h2; simp [lenIn, ownRay]
      · have : ¬ d = n := fun h => h2 h.symm
        simp [lenIn, ownRay, h2, this]
    · simp [h]
  rw [e2, list_sum_ite List.nodup_range, if_pos (List.mem_range.mpr hk)]

/-- So the refutation covers, for example, the grid of 3 x 3 pixels. -/
example : GeomOk ⟨1, 1, 3 * 3, 3 * 3⟩ ownRay ∧ ¬ ((3 : Nat) = 2 ∧ (3 : Nat) = 2) :=
  ⟨ownRay_ok _, by omega⟩

/-- The hypotheses of the positive results on 2 x 2 pixels. -/
example : GeomOk ⟨1, 1, 2 * 2, 2 * 2⟩ ownRay ∧ PosData ⟨1, 1, 2 * 2, 2 * 2⟩ (fun i => (i : ℝ) + 1) ∧
    PosImage ⟨1, 1, 2 * 2, 2 * 2⟩ (fun i => (i : ℝ) + 3) ∧ SymGrid 2 2 :=
  ⟨ownRay_ok _, fun _ _ _ _ _ _ => by positivity, fun _ _ _ _ => by positivity,
    (symGrid_iff le_rfl le_rfl).mpr ⟨rfl, rfl⟩⟩

end Examples

end Tomopy.Iter
