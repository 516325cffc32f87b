import Verif.Iter.TvSaddle

/-!
# Gradient descent on a least squares functional

`x⁺ = x - 2 τ Mᵀ (M x - b)` converges from every start, for every `b`, exactly if
`τ ‖M x‖² < ‖x‖²` for all `x ≠ 0`; the limit is the least squares solution nearest to the start.
-/

set_option linter.unusedSectionVars false

namespace Tomopy.Iter.Lw

open Matrix Filter Topology
open Pdhg (dot_self_nonneg coord_le norm_le_of_dot dot_tendsto_zero linear_zero)

variable {I J : Type} [Fintype I] [Fintype J]

/-- One step of gradient descent. -/
def step (M : Matrix J I ℝ) (b : J → ℝ) (τ : ℝ) (x : I → ℝ) : I → ℝ :=
  x - (2 * τ) • ((M *ᵥ x - b) ᵥ* M)

/-- Normal equations. -/
def Normal (M : Matrix J I ℝ) (b : J → ℝ) (x : I → ℝ) : Prop := (M *ᵥ x - b) ᵥ* M = 0

/-- Squared residual. -/
def res2 (M : Matrix J I ℝ) (b : J → ℝ) (x : I → ℝ) : ℝ := (M *ᵥ x - b) ⬝ᵥ (M *ᵥ x - b)

theorem dot_sub_self (u v : J → ℝ) : (u - v) ⬝ᵥ (u - v) = u ⬝ᵥ u - 2 * (u ⬝ᵥ v) + v ⬝ᵥ v := by
  rw [sub_dotProduct, dotProduct_sub, dotProduct_sub, dotProduct_comm v u]
  ring

theorem dot_add_self (u v : J → ℝ) : (u + v) ⬝ᵥ (u + v) = u ⬝ᵥ u + 2 * (u ⬝ᵥ v) + v ⬝ᵥ v := by
  rw [add_dotProduct, dotProduct_add, dotProduct_add, dotProduct_comm v u]
  ring

theorem dot_zero_iff {x : I → ℝ} : x ⬝ᵥ x = 0 ↔ x = 0 := by
  constructor
  · intro h
    funext i
    have := coord_le x i
    rw [h] at this
    exact pow_eq_zero_iff (two_ne_zero) |>.mp (le_antisymm this (sq_nonneg _))
  · rintro rfl; simp

theorem dot_pos {x : I → ℝ} (h : x ≠ 0) : 0 < x ⬝ᵥ x :=
  lt_of_le_of_ne (dot_self_nonneg x) fun e => h (dot_zero_iff.mp e.symm)

theorem cauchy (u v : J → ℝ) : (u ⬝ᵥ v) ^ 2 ≤ (u ⬝ᵥ u) * (v ⬝ᵥ v) := by
  have := Finset.sum_mul_sq_le_sq_mul_sq Finset.univ u v
  simp only [dotProduct, ← pow_two]
  exact this

theorem res2_split {M : Matrix J I ℝ} {b : J → ℝ} {z : I → ℝ} (h : Normal M b z) (x : I → ℝ) :
    res2 M b x = res2 M b z + (M *ᵥ (x - z)) ⬝ᵥ (M *ᵥ (x - z)) := by
  unfold res2
  have e : M *ᵥ x - b = (M *ᵥ z - b) + M *ᵥ (x - z) := by rw [mulVec_sub]; abel
  rw [e, dot_add_self, dotProduct_mulVec, h, zero_dotProduct]
  ring

/-- Solutions of the normal equations minimise the residual. -/
theorem normal_minimises {M : Matrix J I ℝ} {b : J → ℝ} {z : I → ℝ} (h : Normal M b z) (x : I → ℝ) :
    res2 M b z ≤ res2 M b x := by
  rw [res2_split h x]
  linarith [dot_self_nonneg (M *ᵥ (x - z))]

theorem minimises_normal {M : Matrix J I ℝ} {b : J → ℝ} {z : I → ℝ}
    (h : ∀ x, res2 M b z ≤ res2 M b x) : Normal M b z := by
  have key : ∀ v, ((M *ᵥ z - b) ᵥ* M) ⬝ᵥ v = 0 := by
    intro v
    rw [← dotProduct_mulVec]
    have : 2 * ((M *ᵥ z - b) ⬝ᵥ M *ᵥ v) = 0 := by
      apply linear_zero (C := (M *ᵥ v) ⬝ᵥ (M *ᵥ v))
      intro t
      have h1 := h (z + t • v)
      unfold res2 at h1
      have e : M *ᵥ (z + t • v) - b = (M *ᵥ z - b) + t • (M *ᵥ v) := by
        rw [mulVec_add, mulVec_smul]; abel
      rw [e, dot_add_self] at h1
      simp only [dotProduct_smul, smul_dotProduct, smul_eq_mul] at h1
      linarith
    linarith
  funext i
  classical
  have := key (Pi.single i 1)
  simpa using this

/-- A least squares solution exists. -/
theorem normal_exists (M : Matrix J I ℝ) (b : J → ℝ) : ∃ z, Normal M b z := by
  obtain ⟨S, hS⟩ : ∃ S, S = LinearMap.range M.mulVecLin := ⟨_, rfl⟩
  have hcl : IsClosed (S : Set (J → ℝ)) := Submodule.closed_of_finiteDimensional S
  have hb0 := dot_self_nonneg b
  have hcomp : IsCompact (Metric.closedBall b (Real.sqrt (b ⬝ᵥ b)) ∩ S) :=
    (isCompact_closedBall _ _).inter_right hcl
  have hin : ∀ w : J → ℝ, (w - b) ⬝ᵥ (w - b) ≤ b ⬝ᵥ b → w ∈ Metric.closedBall b (Real.sqrt (b ⬝ᵥ b)) := by
    intro w hw
    rw [Metric.mem_closedBall, dist_eq_norm]
    apply norm_le_of_dot (Real.sqrt_nonneg _)
    rwa [Real.sq_sqrt hb0]
  have h0 : (0 : J → ℝ) ∈ Metric.closedBall b (Real.sqrt (b ⬝ᵥ b)) ∩ S :=
    ⟨hin 0 (by simp), S.zero_mem⟩
  obtain ⟨w, ⟨-, hw2⟩, hmin⟩ := hcomp.exists_isMinOn ⟨0, h0⟩
    (f := fun w : J → ℝ => (w - b) ⬝ᵥ (w - b))
    (Continuous.continuousOn (by
      have : Continuous fun w : J → ℝ => w - b := continuous_id.sub continuous_const
      exact this.dotProduct this))
  rw [hS] at hw2
  obtain ⟨x, rfl⟩ := hw2
  refine ⟨x, minimises_normal fun x' => ?_⟩
  unfold res2
  by_cases hx : (M *ᵥ x' - b) ⬝ᵥ (M *ᵥ x' - b) ≤ b ⬝ᵥ b
  · exact hmin ⟨hin _ hx, by rw [hS]; exact ⟨x', rfl⟩⟩
  · have := hmin h0
    simp only [zero_sub, Set.mem_ofPred_eq, dotProduct_neg, neg_dotProduct, neg_neg] at this
    exact le_trans this (not_le.mp hx).le

theorem transpose_bound {M : Matrix J I ℝ} {τ κ : ℝ} (hκ : 0 ≤ κ)
    (h : ∀ x, τ * ((M *ᵥ x) ⬝ᵥ (M *ᵥ x)) ≤ κ * (x ⬝ᵥ x)) (hτ : 0 ≤ τ) (y : J → ℝ) :
    τ * ((y ᵥ* M) ⬝ᵥ (y ᵥ* M)) ≤ κ * (y ⬝ᵥ y) := by
  obtain ⟨v, hv⟩ : ∃ v, v = y ᵥ* M := ⟨_, rfl⟩
  rw [← hv]
  have e : v ⬝ᵥ v = y ⬝ᵥ M *ᵥ v := by rw [dotProduct_mulVec, ← hv]
  have h1 := cauchy y (M *ᵥ v)
  rw [← e] at h1
  have h2 := h v
  have hy := dot_self_nonneg y
  rcases (dot_self_nonneg v).eq_or_lt with h0 | h0
  · rw [← h0, mul_zero]
    exact mul_nonneg hκ hy
  · have h3 : τ * (v ⬝ᵥ v) ^ 2 ≤ κ * (y ⬝ᵥ y) * (v ⬝ᵥ v) := by
      nlinarith [mul_le_mul_of_nonneg_left h1 hτ, mul_le_mul_of_nonneg_left h2 hy]
    have h4 : τ * (v ⬝ᵥ v) * (v ⬝ᵥ v) ≤ κ * (y ⬝ᵥ y) * (v ⬝ᵥ v) := by
      calc _ = τ * (v ⬝ᵥ v) ^ 2 := by ring
        _ ≤ _ := h3
    exact le_of_mul_le_mul_right h4 h0

theorem step_sub {M : Matrix J I ℝ} {b : J → ℝ} {z : I → ℝ} (h : Normal M b z) (τ : ℝ) (x : I → ℝ) :
    step M b τ x - z = (x - z) - (2 * τ) • ((M *ᵥ (x - z)) ᵥ* M) := by
  have e : (M *ᵥ x - b) ᵥ* M = (M *ᵥ (x - z)) ᵥ* M := by
    have : M *ᵥ x - b = M *ᵥ (x - z) + (M *ᵥ z - b) := by rw [mulVec_sub]; abel
    rw [this, add_vecMul, h, add_zero]
  unfold step
  rw [e]
  abel

/-- The distance to every least squares solution decreases. -/
theorem fejer {M : Matrix J I ℝ} {b : J → ℝ} {z : I → ℝ} (hz : Normal M b z) {τ κ : ℝ} (hκ : 0 ≤ κ)
    (hτ : 0 ≤ τ) (h : ∀ x, τ * ((M *ᵥ x) ⬝ᵥ (M *ᵥ x)) ≤ κ * (x ⬝ᵥ x)) (x : I → ℝ) :
    (step M b τ x - z) ⬝ᵥ (step M b τ x - z) +
      4 * τ * (1 - κ) * ((M *ᵥ (x - z)) ⬝ᵥ (M *ᵥ (x - z))) ≤ (x - z) ⬝ᵥ (x - z) := by
  rw [step_sub hz]
  generalize x - z = e
  rw [dot_sub_self]
  have h1 := transpose_bound hκ h hτ (M *ᵥ e)
  have h2 : e ⬝ᵥ ((M *ᵥ e) ᵥ* M) = (M *ᵥ e) ⬝ᵥ (M *ᵥ e) := by
    rw [dotProduct_comm, ← dotProduct_mulVec]
  simp only [dotProduct_smul, smul_dotProduct, smul_eq_mul]
  rw [h2]
  nlinarith [mul_le_mul_of_nonneg_left h1 hτ]

/-- Gradient descent with a short step converges to a least squares solution, whose difference
from the start is a combination of rows. -/
theorem converges {M : Matrix J I ℝ} {τ κ : ℝ} (hτ : 0 < τ) (hκ : 0 ≤ κ) (hκ1 : κ < 1)
    (h : ∀ x, τ * ((M *ᵥ x) ⬝ᵥ (M *ᵥ x)) ≤ κ * (x ⬝ᵥ x)) (b : J → ℝ) (x : I → ℝ) :
    ∃ z, Normal M b z ∧ Tendsto (fun n => (step M b τ)^[n] x) atTop (𝓝 z) ∧ ∃ y, z - x = y ᵥ* M := by
  obtain ⟨z0, hz0⟩ := normal_exists M b
  have hpos : 0 < 4 * τ * (1 - κ) := mul_pos (by linarith) (by linarith)
  have hanti : ∀ z, Normal M b z → Antitone fun n =>
      ((step M b τ)^[n] x - z) ⬝ᵥ ((step M b τ)^[n] x - z) := by
    intro z hz
    apply antitone_nat_of_succ_le
    intro n
    rw [Function.iterate_succ_apply']
    have := fejer hz hκ hτ.le h ((step M b τ)^[n] x)
    have h2 := mul_nonneg hpos.le (dot_self_nonneg (M *ᵥ ((step M b τ)^[n] x - z)))
    linarith
  have hlim : ∀ z, Normal M b z → ∃ l, Tendsto (fun n =>
      ((step M b τ)^[n] x - z) ⬝ᵥ ((step M b τ)^[n] x - z)) atTop (𝓝 l) := fun z hz =>
    ⟨_, tendsto_atTop_ciInf (hanti z hz) ⟨0, by rintro _ ⟨n, rfl⟩; exact dot_self_nonneg _⟩⟩
  -- residual tends to zero
  have hM : Tendsto (fun n => M *ᵥ ((step M b τ)^[n] x - z0)) atTop (𝓝 0) := by
    apply dot_tendsto_zero
    obtain ⟨l, hl⟩ := hlim z0 hz0
    have hd := hl.sub (hl.comp (tendsto_add_atTop_nat 1))
    rw [sub_self] at hd
    have hd' := hd.const_mul (4 * τ * (1 - κ))⁻¹
    rw [mul_zero] at hd'
    refine squeeze_zero (fun n => dot_self_nonneg _) (fun n => ?_) hd'
    rw [← div_eq_inv_mul, le_div_iff₀ hpos]
    simp only [Function.comp, Function.iterate_succ_apply']
    have := fejer hz0 hκ hτ.le h ((step M b τ)^[n] x)
    linarith
  have hbd : ∀ n, (step M b τ)^[n] x ∈ Metric.closedBall z0 (Real.sqrt ((x - z0) ⬝ᵥ (x - z0))) := by
    intro n
    rw [Metric.mem_closedBall, dist_eq_norm]
    apply norm_le_of_dot (Real.sqrt_nonneg _)
    rw [Real.sq_sqrt (dot_self_nonneg _)]
    exact hanti z0 hz0 (Nat.zero_le n)
  obtain ⟨w, -, φ, hφ, hw⟩ := (isCompact_closedBall z0 _).tendsto_subseq hbd
  have hMw : M *ᵥ (w - z0) = 0 := by
    have h1 : Tendsto (fun n => M *ᵥ ((step M b τ)^[φ n] x - z0)) atTop (𝓝 (M *ᵥ (w - z0))) := by
      have hc : Continuous fun u : I → ℝ => M *ᵥ (u - z0) :=
        continuous_const.matrix_mulVec (continuous_id.sub continuous_const)
      exact (hc.tendsto w).comp hw
    exact tendsto_nhds_unique h1 (hM.comp hφ.tendsto_atTop)
  have hNw : Normal M b w := by
    unfold Normal
    have : M *ᵥ w - b = M *ᵥ (w - z0) + (M *ᵥ z0 - b) := by rw [mulVec_sub]; abel
    rw [this, hMw, zero_add]
    exact hz0
  obtain ⟨l, hl⟩ := hlim w hNw
  have hl0 : l = 0 := by
    have h1 := hl.comp hφ.tendsto_atTop
    have hc : Continuous fun u : I → ℝ => (u - w) ⬝ᵥ (u - w) :=
      (continuous_id.sub continuous_const).dotProduct (continuous_id.sub continuous_const)
    have h2 := (hc.tendsto w).comp hw
    have h3 := tendsto_nhds_unique h1 h2
    rw [h3]
    simp
  rw [hl0] at hl
  have hto : Tendsto (fun n => (step M b τ)^[n] x) atTop (𝓝 w) := by
    have := dot_tendsto_zero hl
    exact tendsto_sub_nhds_zero_iff.mp this
  refine ⟨w, hNw, hto, ?_⟩
  obtain ⟨S, hS⟩ : ∃ S, S = LinearMap.range M.vecMulLinear := ⟨_, rfl⟩
  have hcl : IsClosed (S : Set (I → ℝ)) := Submodule.closed_of_finiteDimensional S
  have hmem : ∀ n, (step M b τ)^[n] x - x ∈ S := by
    intro n
    induction n with
    | zero => simp
    | succ n ih =>
      rw [Function.iterate_succ_apply']
      have e : step M b τ ((step M b τ)^[n] x) - x = ((step M b τ)^[n] x - x) -
          (2 * τ) • ((M *ᵥ ((step M b τ)^[n] x) - b) ᵥ* M) := by unfold step; abel
      rw [e]
      refine S.sub_mem ih (S.smul_mem _ ?_)
      rw [hS]
      exact ⟨_, rfl⟩
  have := hcl.mem_of_tendsto (hto.sub_const x) (Eventually.of_forall hmem)
  rw [hS] at this
  obtain ⟨y, hy⟩ := this
  exact ⟨y, hy.symm⟩

/-- Such a solution is nearer to the start than every other least squares solution. -/
theorem nearest {M : Matrix J I ℝ} {b : J → ℝ} {z z' x : I → ℝ} (hz : Normal M b z)
    (hz' : Normal M b z') (hy : ∃ y, z - x = y ᵥ* M) :
    (z - x) ⬝ᵥ (z - x) ≤ (z' - x) ⬝ᵥ (z' - x) := by
  obtain ⟨y, hy⟩ := hy
  have h0 : M *ᵥ (z' - z) = 0 := by
    have h1 := res2_split hz z'
    have h2 := res2_split hz' z
    have e : z - z' = -(z' - z) := by abel
    rw [e, mulVec_neg, neg_dotProduct, dotProduct_neg, neg_neg] at h2
    exact dot_zero_iff.mp (by linarith)
  have e : z' - x = (z - x) + (z' - z) := by abel
  rw [e, dot_add_self]
  have : (z - x) ⬝ᵥ (z' - z) = 0 := by
    rw [hy, ← dotProduct_mulVec, h0, dotProduct_zero]
  rw [this]
  linarith [dot_self_nonneg (z' - z)]

/-! ### The exact condition -/

/-- The largest ratio of the squared norms is attained. -/
theorem exists_top (M : Matrix J I ℝ) {x0 : I → ℝ} (hx0 : x0 ≠ 0) :
    ∃ (e : I → ℝ) (lam : ℝ), e ⬝ᵥ e = 1 ∧ (M *ᵥ e) ⬝ᵥ (M *ᵥ e) = lam ∧
      ∀ x, (M *ᵥ x) ⬝ᵥ (M *ᵥ x) ≤ lam * (x ⬝ᵥ x) := by
  have hc : Continuous fun x : I → ℝ => x ⬝ᵥ x := continuous_id.dotProduct continuous_id
  have hcl : IsClosed {x : I → ℝ | x ⬝ᵥ x = 1} := isClosed_eq hc continuous_const
  have hcomp : IsCompact {x : I → ℝ | x ⬝ᵥ x = 1} := by
    refine (isCompact_closedBall (0 : I → ℝ) 1).of_isClosed_subset hcl fun x hx => ?_
    rw [Metric.mem_closedBall, dist_zero_right]
    exact norm_le_of_dot zero_le_one (le_of_eq (by rw [one_pow]; exact hx))
  have hnorm : ∀ x : I → ℝ, x ≠ 0 → ((Real.sqrt (x ⬝ᵥ x))⁻¹ • x) ⬝ᵥ ((Real.sqrt (x ⬝ᵥ x))⁻¹ • x) = 1 := by
    intro x hx
    have hp := dot_pos hx
    have hs := Real.sqrt_pos.mpr hp
    have hs2 := Real.mul_self_sqrt hp.le
    simp only [dotProduct_smul, smul_dotProduct, smul_eq_mul]
    rw [← mul_assoc, ← mul_inv, hs2]
    exact inv_mul_cancel₀ hp.ne'
  have hMc : Continuous fun x : I → ℝ => (M *ᵥ x) ⬝ᵥ (M *ᵥ x) := by
    have : Continuous fun x : I → ℝ => M *ᵥ x := continuous_const.matrix_mulVec continuous_id
    exact this.dotProduct this
  obtain ⟨e, he, hmax⟩ := hcomp.exists_isMaxOn ⟨_, hnorm x0 hx0⟩ hMc.continuousOn
  refine ⟨e, _, he, rfl, fun x => ?_⟩
  by_cases hx : x = 0
  · subst hx; simp
  · have hp := dot_pos hx
    have hs := Real.sqrt_pos.mpr hp
    have hs2 := Real.mul_self_sqrt hp.le
    have h1 := hmax (hnorm x hx)
    simp only [Set.mem_ofPred_eq, mulVec_smul, dotProduct_smul, smul_dotProduct, smul_eq_mul] at h1
    have e1 : (Real.sqrt (x ⬝ᵥ x))⁻¹ * ((Real.sqrt (x ⬝ᵥ x))⁻¹ * ((M *ᵥ x) ⬝ᵥ (M *ᵥ x))) =
        ((M *ᵥ x) ⬝ᵥ (M *ᵥ x)) / (x ⬝ᵥ x) := by
      rw [← mul_assoc, ← mul_inv, hs2]
      ring
    rw [e1, div_le_iff₀ hp] at h1
    exact h1

/-- A vector that attains the largest ratio is an eigenvector. -/
theorem top_eigen {M : Matrix J I ℝ} {e : I → ℝ} {lam : ℝ} (he : e ⬝ᵥ e = 1)
    (hl : (M *ᵥ e) ⬝ᵥ (M *ᵥ e) = lam) (h : ∀ x, (M *ᵥ x) ⬝ᵥ (M *ᵥ x) ≤ lam * (x ⬝ᵥ x)) :
    (M *ᵥ e) ᵥ* M = lam • e := by
  have key : ∀ v, (lam • e - (M *ᵥ e) ᵥ* M) ⬝ᵥ v = 0 := by
    intro v
    have : 2 * ((lam • e - (M *ᵥ e) ᵥ* M) ⬝ᵥ v) = 0 := by
      apply linear_zero (C := lam * (v ⬝ᵥ v) - (M *ᵥ v) ⬝ᵥ (M *ᵥ v))
      intro t
      have h1 := h (e + t • v)
      rw [mulVec_add, mulVec_smul, dot_add_self, dot_add_self] at h1
      simp only [dotProduct_smul, smul_dotProduct, smul_eq_mul, he, hl] at h1
      rw [sub_dotProduct, smul_dotProduct, ← dotProduct_mulVec, smul_eq_mul]
      linarith
    linarith
  have h0 : lam • e - (M *ᵥ e) ᵥ* M = 0 := by
    funext i
    classical
    have := key (Pi.single i 1)
    simpa using this
  exact (sub_eq_zero.mp h0).symm

/-- A strict bound on every vector gives a uniform one. -/
theorem uniform_of_strict {M : Matrix J I ℝ} {τ : ℝ} (hτ : 0 ≤ τ)
    (h : ∀ x, x ≠ 0 → τ * ((M *ᵥ x) ⬝ᵥ (M *ᵥ x)) < x ⬝ᵥ x) :
    ∃ κ, 0 ≤ κ ∧ κ < 1 ∧ ∀ x, τ * ((M *ᵥ x) ⬝ᵥ (M *ᵥ x)) ≤ κ * (x ⬝ᵥ x) := by
  by_cases hx : ∃ x0 : I → ℝ, x0 ≠ 0
  · obtain ⟨x0, hx0⟩ := hx
    obtain ⟨e, lam, he, hl, hb⟩ := exists_top M hx0
    have hlam : 0 ≤ lam := hl ▸ dot_self_nonneg _
    refine ⟨τ * lam, mul_nonneg hτ hlam, ?_, fun x => ?_⟩
    · have hne : e ≠ 0 := by rintro rfl; simp at he
      have := h e hne
      rwa [hl, he] at this
    · rw [mul_assoc]
      exact mul_le_mul_of_nonneg_left (hb x) hτ
  · push Not at hx
    refine ⟨0, le_refl _, zero_lt_one, fun x => ?_⟩
    rw [hx x]
    simp

theorem pow_not_tendsto {c l : ℝ} (hc : c ≤ -1) : ¬ Tendsto (fun n => c ^ n) atTop (𝓝 l) := by
  intro h
  have h1 := (h.comp (tendsto_add_atTop_nat 1)).sub h
  rw [sub_self] at h1
  have h2 := h1.abs
  rw [abs_zero] at h2
  have h3 : ∀ n : ℕ, (2 : ℝ) ≤ |c ^ (n + 1) - c ^ n| := by
    intro n
    have e : c ^ (n + 1) - c ^ n = c ^ n * (c - 1) := by ring
    rw [e, abs_mul, abs_pow]
    have a1 : (1 : ℝ) ≤ |c| := by rw [abs_of_nonpos (by linarith)]; linarith
    have a2 : (2 : ℝ) ≤ |c - 1| := by rw [abs_of_nonpos (by linarith)]; linarith
    have a3 : (1 : ℝ) ≤ |c| ^ n := one_le_pow₀ a1
    nlinarith
  have := ge_of_tendsto' h2 h3
  linarith

/-- With a longer step there is a start from which the iteration does not converge, for data zero. -/
theorem not_converges {M : Matrix J I ℝ} {τ : ℝ} (hτ : 0 < τ) {x0 : I → ℝ} (hx0 : x0 ≠ 0)
    (h : x0 ⬝ᵥ x0 ≤ τ * ((M *ᵥ x0) ⬝ᵥ (M *ᵥ x0))) :
    ∃ e : I → ℝ, ∃ i, ∀ l, ¬ Tendsto (fun n => ((step M 0 τ)^[n] e) i) atTop (𝓝 l) := by
  obtain ⟨e, lam, he, hl, hb⟩ := exists_top M hx0
  have heig := top_eigen he hl hb
  have hlam : 1 ≤ τ * lam := by
    have h1 := mul_le_mul_of_nonneg_left (hb x0) hτ.le
    have hp := dot_pos hx0
    have h2 : x0 ⬝ᵥ x0 ≤ τ * lam * (x0 ⬝ᵥ x0) := by rw [mul_assoc]; exact h.trans h1
    by_contra hlt
    rw [not_le] at hlt
    nlinarith
  have hne : e ≠ 0 := by rintro rfl; simp at he
  obtain ⟨i, hi⟩ : ∃ i, e i ≠ 0 := by
    by_contra hall
    push Not at hall
    exact hne (funext hall)
  have hit : ∀ n, (step M 0 τ)^[n] e = (1 - 2 * (τ * lam)) ^ n • e := by
    intro n
    induction n with
    | zero => simp
    | succ n ih =>
      rw [Function.iterate_succ_apply', ih]
      unfold step
      rw [sub_zero, mulVec_smul, smul_vecMul, heig, pow_succ]
      module
  refine ⟨e, i, fun l hlim => ?_⟩
  apply pow_not_tendsto (c := 1 - 2 * (τ * lam)) (l := l / e i) (by linarith)
  have := hlim.div_const (e i)
  refine this.congr fun n => ?_
  rw [hit]
  simp only [Pi.smul_apply, smul_eq_mul]
  field_simp

end Tomopy.Iter.Lw
