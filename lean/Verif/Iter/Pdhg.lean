import Mathlib.Data.Matrix.Mul
import Mathlib.LinearAlgebra.Matrix.DotProduct
import Mathlib.Topology.Algebra.Ring.Real
import Mathlib.Topology.Order.MonotoneConvergence
import Mathlib.Topology.MetricSpace.ProperSpace.Real
import Mathlib.Topology.MetricSpace.Sequences
import Mathlib.Analysis.Normed.Group.Constructions
import Mathlib.Analysis.Normed.Ring.Lemmas
import Mathlib.Analysis.SpecialFunctions.Sqrt
import Mathlib.Topology.Instances.Matrix
import Mathlib.Tactic.Linarith
import Mathlib.Tactic.Ring
import Mathlib.Tactic.Module
import Mathlib.Tactic.LinearCombination
import Mathlib.Tactic.FieldSimp

/-!
# The primal-dual iteration of `tv`

`x⁺ = x - c Kᵀ y`, `y⁺ = P (y + c K (2 x⁺ - x))` with the resolvent `P` of a monotone relation
converges to a saddle point if there is one and `c² ‖K x‖² ≤ κ² ‖x‖²` with `κ < 1`.
-/

set_option linter.unusedSectionVars false

namespace Tomopy.Iter.Pdhg

open Matrix Filter Topology

variable {I J : Type} [Fintype I] [Fintype J]

/-- `P` is the resolvent, with parameter `c`, of the monotone relation `sub`. -/
structure IsProx (c : ℝ) (P : (J → ℝ) → J → ℝ) (sub : (J → ℝ) → (J → ℝ) → Prop) : Prop where
  mono : ∀ y v y' v', sub y v → sub y' v' → 0 ≤ (v - v') ⬝ᵥ (y - y')
  res : ∀ w, ∃ v, sub (P w) v ∧ w - P w = c • v
  cont : Continuous P

/-- One step on `(x, y)`. -/
def step (K : Matrix J I ℝ) (c : ℝ) (P : (J → ℝ) → J → ℝ) (z : (I → ℝ) × (J → ℝ)) :
    (I → ℝ) × (J → ℝ) :=
  (z.1 - c • (z.2 ᵥ* K), P (z.2 + c • (K *ᵥ ((2 : ℝ) • (z.1 - c • (z.2 ᵥ* K)) - z.1))))

/-- Saddle points. -/
def Saddle (K : Matrix J I ℝ) (sub : (J → ℝ) → (J → ℝ) → Prop) (z : (I → ℝ) × (J → ℝ)) : Prop :=
  z.2 ᵥ* K = 0 ∧ sub z.2 (K *ᵥ z.1)

/-- The quadratic form in which the distances to saddle points decrease. -/
def Q (K : Matrix J I ℝ) (c : ℝ) (z : (I → ℝ) × (J → ℝ)) : ℝ :=
  z.1 ⬝ᵥ z.1 + z.2 ⬝ᵥ z.2 - 2 * c * (z.2 ⬝ᵥ K *ᵥ z.1)

theorem step_continuous (K : Matrix J I ℝ) (c : ℝ) {P : (J → ℝ) → J → ℝ} (hP : Continuous P) :
    Continuous (step K c P) := by
  unfold step
  have h1 : Continuous fun z : (I → ℝ) × (J → ℝ) => z.1 - c • (z.2 ᵥ* K) :=
    continuous_fst.sub ((continuous_snd.matrix_vecMul continuous_const).const_smul c)
  refine h1.prodMk (hP.comp ?_)
  exact continuous_snd.add ((continuous_const.matrix_mulVec
    ((h1.const_smul (2 : ℝ)).sub continuous_fst)).const_smul c)

theorem Q_continuous (K : Matrix J I ℝ) (c : ℝ) : Continuous (Q K c) := by
  unfold Q
  exact ((continuous_fst.dotProduct continuous_fst).add
    (continuous_snd.dotProduct continuous_snd)).sub
    ((continuous_snd.dotProduct (continuous_const.matrix_mulVec continuous_fst)).const_mul _)

theorem dot_self_nonneg (x : I → ℝ) : 0 ≤ x ⬝ᵥ x :=
  Finset.sum_nonneg fun i _ => mul_self_nonneg (x i)

/-- The distance does not increase, and decreases by the length of the step. -/
theorem fejer {K : Matrix J I ℝ} {c : ℝ} (hc : 0 ≤ c) {P : (J → ℝ) → J → ℝ}
    {sub : (J → ℝ) → (J → ℝ) → Prop} (hP : IsProx c P sub) {s : (I → ℝ) × (J → ℝ)}
    (hs : Saddle K sub s) (z : (I → ℝ) × (J → ℝ)) :
    Q K c (step K c P z - s) + Q K c (z - step K c P z) ≤ Q K c (z - s) := by
  obtain ⟨x, y⟩ := z
  obtain ⟨xs, ys⟩ := s
  obtain ⟨hs1, hs2⟩ := hs
  simp only at hs1 hs2
  obtain ⟨v, hv, hw⟩ := hP.res (y + c • (K *ᵥ ((2 : ℝ) • (x - c • (y ᵥ* K)) - x)))
  have hm := hP.mono _ _ _ _ hv hs2
  simp only [step]
  generalize P (y + c • (K *ᵥ ((2 : ℝ) • (x - c • (y ᵥ* K)) - x))) = yp at *
  generalize hxp : x - c • (y ᵥ* K) = xp at *
  have hx : x = xp + c • (y ᵥ* K) := by rw [← hxp]; abel
  have hy : y = yp + c • v - c • (K *ᵥ ((2 : ℝ) • xp - x)) := by
    rw [← hw]; abel
  have e0 : ∀ a : I → ℝ, ys ⬝ᵥ K *ᵥ a = 0 := by
    intro a; rw [dotProduct_mulVec, hs1, zero_dotProduct]
  -- the two halves of the inner product of the step with the new error
  have e1 : ∀ a : I → ℝ, (x - xp) ⬝ᵥ a = c * (y ⬝ᵥ K *ᵥ a) := by
    intro a
    rw [hx, add_sub_cancel_left, smul_dotProduct, dotProduct_mulVec, smul_eq_mul]
  have e2 : ∀ b : J → ℝ, (y - yp) ⬝ᵥ b = c * (v ⬝ᵥ b) - c * ((K *ᵥ ((2 : ℝ) • xp - x)) ⬝ᵥ b) := by
    intro b
    have : y - yp = c • v - c • (K *ᵥ ((2 : ℝ) • xp - x)) := by rw [← hw]; abel
    rw [this, sub_dotProduct, smul_dotProduct, smul_dotProduct, smul_eq_mul, smul_eq_mul]
  have h1 := e1 (xp - xs)
  have h2 := e2 (yp - ys)
  have e3 := e0 (xp - xs)
  unfold Q
  simp only [Prod.mk_sub_mk]
  simp only [sub_dotProduct, dotProduct_sub, mulVec_sub, mulVec_smul, smul_dotProduct,
    smul_eq_mul] at *
  have c1 := dotProduct_comm x xp
  have c2 := dotProduct_comm y yp
  have c3 := dotProduct_comm x xs
  have c4 := dotProduct_comm y ys
  have c5 := dotProduct_comm xp xs
  have c6 := dotProduct_comm yp ys
  have c7 := dotProduct_comm (K *ᵥ x) yp
  have c8 := dotProduct_comm (K *ᵥ xp) yp
  have c9 := dotProduct_comm (K *ᵥ xs) yp
  have c10 := dotProduct_comm (K *ᵥ x) ys
  have c11 := dotProduct_comm (K *ᵥ xp) ys
  have c12 := dotProduct_comm (K *ᵥ xs) ys
  have hm' := mul_nonneg hc hm
  have f1 := e0 x
  have f2 := e0 xp
  have f3 := e0 xs
  rw [c7, c8, c10, c11] at h2
  rw [c9, c12] at hm'
  rw [f1, f2] at h2
  rw [f3] at hm'
  rw [f1, f2, f3]
  nlinarith

theorem Q_coercive {K : Matrix J I ℝ} {c κ : ℝ} (hκ : 0 < κ)
    (hK : ∀ x, c ^ 2 * ((K *ᵥ x) ⬝ᵥ (K *ᵥ x)) ≤ κ ^ 2 * (x ⬝ᵥ x)) (z : (I → ℝ) × (J → ℝ)) :
    (1 - κ) * (z.1 ⬝ᵥ z.1 + z.2 ⬝ᵥ z.2) ≤ Q K c z := by
  obtain ⟨x, y⟩ := z
  unfold Q
  simp only
  have h1 := hK x
  have h2 := dot_self_nonneg (κ • y - c • (K *ᵥ x))
  simp only [sub_dotProduct, dotProduct_sub, smul_dotProduct, dotProduct_smul, smul_eq_mul] at h2
  rw [dotProduct_comm (K *ᵥ x) y] at h2
  have h3 : 2 * c * (y ⬝ᵥ K *ᵥ x) * κ ≤ (κ * (x ⬝ᵥ x) + κ * (y ⬝ᵥ y)) * κ := by nlinarith
  have h4 := le_of_mul_le_mul_right h3 hκ
  linarith

theorem coord_le (x : I → ℝ) (i : I) : x i ^ 2 ≤ x ⬝ᵥ x := by
  have := Finset.single_le_sum (f := fun i => x i * x i) (fun i _ => mul_self_nonneg (x i))
    (Finset.mem_univ i)
  rw [pow_two]
  exact this

theorem step_fixed {K : Matrix J I ℝ} {c : ℝ} (hc : 0 < c) {P : (J → ℝ) → J → ℝ}
    {sub : (J → ℝ) → (J → ℝ) → Prop} (hP : IsProx c P sub) {z : (I → ℝ) × (J → ℝ)}
    (h : step K c P z = z) : Saddle K sub z := by
  obtain ⟨x, y⟩ := z
  unfold step at h
  simp only [Prod.mk.injEq] at h
  obtain ⟨h1, h2⟩ := h
  have h3 : y ᵥ* K = 0 := by
    have : c • (y ᵥ* K) = 0 := by
      have := congrArg (fun a => x - a) h1
      simpa using this
    exact (smul_eq_zero.mp this).resolve_left hc.ne'
  refine ⟨h3, ?_⟩
  rw [h3] at h2
  have e : (2 : ℝ) • (x - c • (0 : I → ℝ)) - x = x := by
    rw [smul_zero, sub_zero, two_smul, add_sub_cancel_right]
  rw [e] at h2
  obtain ⟨v, hv, hw⟩ := hP.res (y + c • (K *ᵥ x))
  rw [h2] at hv hw
  rw [add_sub_cancel_left] at hw
  have : K *ᵥ x = v := smul_right_injective (J → ℝ) hc.ne' hw
  simp only
  rw [this]
  exact hv

/-- A vector whose square sum is bounded lies in a ball. -/
theorem norm_le_of_dot {x : I → ℝ} {B : ℝ} (hB : 0 ≤ B) (h : x ⬝ᵥ x ≤ B ^ 2) : ‖x‖ ≤ B := by
  rw [pi_norm_le_iff_of_nonneg hB]
  intro i
  rw [Real.norm_eq_abs]
  exact abs_le_of_sq_le_sq ((coord_le x i).trans h) hB

theorem dot_tendsto_zero {u : ℕ → I → ℝ} (h : Tendsto (fun n => u n ⬝ᵥ u n) atTop (𝓝 0)) :
    Tendsto u atTop (𝓝 0) := by
  rw [tendsto_pi_nhds]
  intro i
  have h1 : Tendsto (fun n => u n i ^ 2) atTop (𝓝 0) :=
    squeeze_zero (fun n => sq_nonneg _) (fun n => coord_le (u n) i) h
  have h2 := h1.sqrt
  rw [Real.sqrt_zero] at h2
  simp only [Real.sqrt_sq_eq_abs] at h2
  exact (tendsto_zero_iff_abs_tendsto_zero _).mpr h2

/-- **Convergence**: from every start the iteration converges to a saddle point, if there is one
and the step is short enough. -/
theorem converges {K : Matrix J I ℝ} {c κ : ℝ} (hc : 0 < c) (hκ : 0 < κ) (hκ1 : κ < 1)
    (hK : ∀ x, c ^ 2 * ((K *ᵥ x) ⬝ᵥ (K *ᵥ x)) ≤ κ ^ 2 * (x ⬝ᵥ x)) {P : (J → ℝ) → J → ℝ}
    {sub : (J → ℝ) → (J → ℝ) → Prop} (hP : IsProx c P sub) (hs : ∃ s, Saddle K sub s)
    (z : (I → ℝ) × (J → ℝ)) :
    ∃ s, Saddle K sub s ∧ Tendsto (fun n => (step K c P)^[n] z) atTop (𝓝 s) := by
  obtain ⟨s, hs⟩ := hs
  have h1κ : 0 < 1 - κ := by linarith
  have hQ0 : ∀ w, 0 ≤ Q K c w := fun w => le_trans (mul_nonneg h1κ.le
    (add_nonneg (dot_self_nonneg _) (dot_self_nonneg _))) (Q_coercive hκ hK w)
  -- distances to any saddle point
  have hanti : ∀ s, Saddle K sub s → Antitone fun n => Q K c ((step K c P)^[n] z - s) := by
    intro s hs
    apply antitone_nat_of_succ_le
    intro n
    rw [Function.iterate_succ_apply']
    have := fejer hc.le hP hs ((step K c P)^[n] z)
    linarith [hQ0 ((step K c P)^[n] z - step K c P ((step K c P)^[n] z))]
  have hlim : ∀ s, Saddle K sub s → ∃ l, Tendsto (fun n => Q K c ((step K c P)^[n] z - s)) atTop
      (𝓝 l) := fun s hs => ⟨_, tendsto_atTop_ciInf (hanti s hs) ⟨0, by rintro _ ⟨n, rfl⟩; exact hQ0 _⟩⟩
  -- the steps tend to zero
  have hstep : Tendsto (fun n => (step K c P)^[n] z - step K c P ((step K c P)^[n] z)) atTop
      (𝓝 0) := by
    obtain ⟨l, hl⟩ := hlim s hs
    have hd : Tendsto (fun n => Q K c ((step K c P)^[n] z - s) -
        Q K c ((step K c P)^[n + 1] z - s)) atTop (𝓝 0) := by
      have := hl.sub (hl.comp (tendsto_add_atTop_nat 1))
      rw [sub_self] at this
      exact this
    have hq : Tendsto (fun n => Q K c ((step K c P)^[n] z - step K c P ((step K c P)^[n] z))) atTop
        (𝓝 0) := by
      refine squeeze_zero (fun n => hQ0 _) (fun n => ?_) hd
      rw [Function.iterate_succ_apply']
      have := fejer hc.le hP hs ((step K c P)^[n] z)
      linarith
    have hq' : Tendsto (fun n => (1 - κ)⁻¹ *
        Q K c ((step K c P)^[n] z - step K c P ((step K c P)^[n] z))) atTop (𝓝 0) := by
      have := hq.const_mul (1 - κ)⁻¹
      rwa [mul_zero] at this
    have hb : ∀ w : (I → ℝ) × (J → ℝ), w.1 ⬝ᵥ w.1 ≤ (1 - κ)⁻¹ * Q K c w ∧
        w.2 ⬝ᵥ w.2 ≤ (1 - κ)⁻¹ * Q K c w := by
      intro w
      have h := Q_coercive hκ hK w
      have h' : w.1 ⬝ᵥ w.1 + w.2 ⬝ᵥ w.2 ≤ (1 - κ)⁻¹ * Q K c w := by
        rw [← div_eq_inv_mul, le_div_iff₀ h1κ, mul_comm]
        exact h
      have a1 := dot_self_nonneg w.1
      have a2 := dot_self_nonneg w.2
      constructor <;> linarith
    have t1 := dot_tendsto_zero (squeeze_zero (fun n => dot_self_nonneg _) (fun n => (hb _).1) hq')
    have t2 := dot_tendsto_zero (squeeze_zero (fun n => dot_self_nonneg _) (fun n => (hb _).2) hq')
    have := t1.prodMk_nhds t2
    exact this
  -- a cluster point
  have hbd : ∀ n, (step K c P)^[n] z ∈ Metric.closedBall s (Real.sqrt ((1 - κ)⁻¹ * Q K c (z - s))) := by
    intro n
    rw [Metric.mem_closedBall, dist_eq_norm]
    have h0 : Q K c ((step K c P)^[n] z - s) ≤ Q K c (z - s) := hanti s hs (Nat.zero_le n)
    have h := Q_coercive hκ hK ((step K c P)^[n] z - s)
    have hnn : 0 ≤ (1 - κ)⁻¹ * Q K c (z - s) := mul_nonneg (inv_nonneg.mpr h1κ.le) (hQ0 _)
    have h' : ((step K c P)^[n] z - s).1 ⬝ᵥ ((step K c P)^[n] z - s).1 +
        ((step K c P)^[n] z - s).2 ⬝ᵥ ((step K c P)^[n] z - s).2 ≤ (1 - κ)⁻¹ * Q K c (z - s) := by
      rw [← div_eq_inv_mul, le_div_iff₀ h1κ, mul_comm]
      exact h.trans h0
    have a1 := dot_self_nonneg ((step K c P)^[n] z - s).1
    have a2 := dot_self_nonneg ((step K c P)^[n] z - s).2
    rw [Prod.norm_def]
    apply max_le
    · apply norm_le_of_dot (Real.sqrt_nonneg _)
      rw [Real.sq_sqrt hnn]
      linarith
    · apply norm_le_of_dot (Real.sqrt_nonneg _)
      rw [Real.sq_sqrt hnn]
      linarith
  obtain ⟨w, -, φ, hφ, hw⟩ := (isCompact_closedBall s _).tendsto_subseq hbd
  have hfix : step K c P w = w := by
    have h1 : Tendsto (fun n => step K c P ((step K c P)^[φ n] z)) atTop (𝓝 (step K c P w)) :=
      ((step_continuous K c hP.cont).tendsto w).comp hw
    have h2 : Tendsto (fun n => (step K c P)^[φ n] z - step K c P ((step K c P)^[φ n] z)) atTop
        (𝓝 (w - step K c P w)) := Tendsto.sub hw h1
    have h3 := tendsto_nhds_unique h2 (hstep.comp hφ.tendsto_atTop)
    exact (sub_eq_zero.mp h3).symm
  have hsw := step_fixed hc hP hfix
  refine ⟨w, hsw, ?_⟩
  -- the whole sequence
  obtain ⟨l, hl⟩ := hlim w hsw
  have hl0 : l = 0 := by
    have h1 := hl.comp hφ.tendsto_atTop
    have h2 : Tendsto (fun n => Q K c ((step K c P)^[φ n] z - w)) atTop (𝓝 (Q K c (w - w))) :=
      ((Q_continuous K c).tendsto _).comp (hw.sub tendsto_const_nhds)
    rw [sub_self] at h2
    have h3 := tendsto_nhds_unique h1 h2
    rw [h3]
    simp [Q]
  rw [hl0] at hl
  have hq' : Tendsto (fun n => (1 - κ)⁻¹ * Q K c ((step K c P)^[n] z - w)) atTop (𝓝 0) := by
    have := hl.const_mul (1 - κ)⁻¹
    rwa [mul_zero] at this
  have hb : ∀ w : (I → ℝ) × (J → ℝ), w.1 ⬝ᵥ w.1 ≤ (1 - κ)⁻¹ * Q K c w ∧
      w.2 ⬝ᵥ w.2 ≤ (1 - κ)⁻¹ * Q K c w := by
    intro w
    have h := Q_coercive hκ hK w
    have h' : w.1 ⬝ᵥ w.1 + w.2 ⬝ᵥ w.2 ≤ (1 - κ)⁻¹ * Q K c w := by
      rw [← div_eq_inv_mul, le_div_iff₀ h1κ, mul_comm]
      exact h
    have a1 := dot_self_nonneg w.1
    have a2 := dot_self_nonneg w.2
    constructor <;> linarith
  have t1 := dot_tendsto_zero (squeeze_zero (fun n => dot_self_nonneg _) (fun n => (hb _).1) hq')
  have t2 := dot_tendsto_zero (squeeze_zero (fun n => dot_self_nonneg _) (fun n => (hb _).2) hq')
  have h0 : Tendsto (fun n => (step K c P)^[n] z - w) atTop (𝓝 0) := by
    have := t1.prodMk_nhds t2
    exact this
  have := h0.add_const w
  simpa using this

end Tomopy.Iter.Pdhg
