import Verif.Iter.Pdhg
import Mathlib.Topology.Algebra.Module.FiniteDimension
import Mathlib.Analysis.SpecificLimits.Basic

/-!
# The total variation problem: resolvent, saddle points, minimisers
-/

set_option linter.unusedSectionVars false

namespace Tomopy.Iter.Pdhg

open Matrix Filter Topology

variable {I A B : Type} [Fintype I] [Fintype A] [Fintype B]

/-- Rows of the operator: differences in two directions, rays. -/
def tvK (gx gy : Matrix A I ℝ) (R : Matrix B I ℝ) : Matrix (A ⊕ A ⊕ B) I ℝ :=
  Sum.elim gx (Sum.elim gy R)

/-- Total variation functional: `lam` times the sum of the lengths of the gradients, plus half the
sum of the squared residuals. -/
noncomputable def tvObj (lam : ℝ) (gx gy : Matrix A I ℝ) (R : Matrix B I ℝ) (data : B → ℝ)
    (x : I → ℝ) : ℝ :=
  lam * ∑ a, Real.sqrt ((gx *ᵥ x) a ^ 2 + (gy *ᵥ x) a ^ 2) +
    1 / 2 * ∑ b, ((R *ᵥ x) b - data b) ^ 2

/-- `v` is in the normal cone of the disc of radius `lam` at `y`, and `y` is in the disc. -/
def DiscNormal (lam y0 y1 v0 v1 : ℝ) : Prop :=
  y0 ^ 2 + y1 ^ 2 ≤ lam ^ 2 ∧ ∀ p q, p ^ 2 + q ^ 2 ≤ lam ^ 2 → v0 * (p - y0) + v1 * (q - y1) ≤ 0

/-- The subdifferential of the conjugate. -/
def tvSub (lam : ℝ) (data : B → ℝ) (y v : A ⊕ A ⊕ B → ℝ) : Prop :=
  (∀ a, DiscNormal lam (y (.inl a)) (y (.inr (.inl a))) (v (.inl a)) (v (.inr (.inl a)))) ∧
  ∀ b, v (.inr (.inr b)) = y (.inr (.inr b)) + data b

/-- Scale factor of the projection onto the disc. -/
noncomputable def discU (lam w0 w1 : ℝ) : ℝ :=
  if Real.sqrt (w0 * w0 + w1 * w1) / lam < 1 then 1 else Real.sqrt (w0 * w0 + w1 * w1) / lam

/-- The dual step of `tv`. -/
noncomputable def tvP (c lam : ℝ) (data : B → ℝ) (w : A ⊕ A ⊕ B → ℝ) : A ⊕ A ⊕ B → ℝ :=
  Sum.elim (fun a => w (.inl a) / discU lam (w (.inl a)) (w (.inr (.inl a))))
    (Sum.elim (fun a => w (.inr (.inl a)) / discU lam (w (.inl a)) (w (.inr (.inl a))))
      (fun b => (w (.inr (.inr b)) - c * data b) / (1 + c)))

theorem dot_sum (u v : A ⊕ A ⊕ B → ℝ) : u ⬝ᵥ v = ∑ a, (u (.inl a) * v (.inl a) +
    u (.inr (.inl a)) * v (.inr (.inl a))) + ∑ b, u (.inr (.inr b)) * v (.inr (.inr b)) := by
  unfold dotProduct
  rw [Fintype.sum_sum_type, Fintype.sum_sum_type, Finset.sum_add_distrib, add_assoc]

theorem discU_eq (lam w0 w1 : ℝ) : discU lam w0 w1 = max (Real.sqrt (w0 * w0 + w1 * w1) / lam) 1 := by
  unfold discU
  split
  · rename_i h; rw [max_eq_right h.le]
  · rename_i h; rw [max_eq_left (not_lt.mp h)]

theorem discU_pos (lam w0 w1 : ℝ) : 0 < discU lam w0 w1 := by
  rw [discU_eq]; exact lt_max_of_lt_right one_pos

/-- The inner product of a point of the disc of radius `lam` with a vector. -/
theorem disc_inner {lam p q w0 w1 : ℝ} (hl : 0 ≤ lam) (h : p ^ 2 + q ^ 2 ≤ lam ^ 2) :
    w0 * p + w1 * q ≤ Real.sqrt (w0 ^ 2 + w1 ^ 2) * lam := by
  have h0 : 0 ≤ w0 ^ 2 + w1 ^ 2 := by positivity
  apply le_of_sq_le_sq _ (mul_nonneg (Real.sqrt_nonneg _) hl)
  rw [mul_pow, Real.sq_sqrt h0]
  nlinarith [sq_nonneg (w0 * q - w1 * p), mul_le_mul_of_nonneg_left h h0]

theorem disc_project {lam : ℝ} (hl : 0 < lam) {c : ℝ} (hc : 0 < c) (w0 w1 : ℝ) :
    DiscNormal lam (w0 / discU lam w0 w1) (w1 / discU lam w0 w1)
      ((w0 - w0 / discU lam w0 w1) / c) ((w1 - w1 / discU lam w0 w1) / c) := by
  have h0 : 0 ≤ w0 * w0 + w1 * w1 := add_nonneg (mul_self_nonneg _) (mul_self_nonneg _)
  obtain ⟨s, hs⟩ : ∃ s, s = Real.sqrt (w0 * w0 + w1 * w1) := ⟨_, rfl⟩
  have hs0 : 0 ≤ s := hs ▸ Real.sqrt_nonneg _
  have hs2 : s * s = w0 * w0 + w1 * w1 := by rw [hs]; exact Real.mul_self_sqrt h0
  unfold discU
  rw [← hs]
  split
  · rename_i h
    rw [div_lt_one hl] at h
    constructor
    · rw [div_one, div_one]; nlinarith
    · intro p q _
      simp
  · rename_i h
    rw [not_lt, one_le_div hl] at h
    have hsp : 0 < s := lt_of_lt_of_le hl h
    have e0 : w0 / (s / lam) = w0 * lam / s := by field_simp
    have e1 : w1 / (s / lam) = w1 * lam / s := by field_simp
    rw [e0, e1]
    constructor
    · rw [div_pow, div_pow, ← add_div, div_le_iff₀ (by positivity)]
      nlinarith
    · intro p q hpq
      have hi := disc_inner (w0 := w0) (w1 := w1) hl.le hpq
      have e : w0 ^ 2 + w1 ^ 2 = w0 * w0 + w1 * w1 := by ring
      rw [e, ← hs] at hi
      have key : (w0 - w0 * lam / s) / c * (p - w0 * lam / s) +
          (w1 - w1 * lam / s) / c * (q - w1 * lam / s) =
          (s - lam) / (s * c) * (w0 * p + w1 * q - (w0 * w0 + w1 * w1) * lam / s) := by
        field_simp
        ring
      rw [key, ← hs2]
      have e2 : s * s * lam / s = s * lam := by field_simp
      rw [e2]
      apply mul_nonpos_of_nonneg_of_nonpos
      · exact div_nonneg (by linarith) (by positivity)
      · linarith

/-- The dual step is the resolvent. -/
theorem tvP_isProx {c lam : ℝ} (hc : 0 < c) (hl : 0 < lam) (data : B → ℝ) :
    IsProx c (tvP (A := A) c lam data) (tvSub lam data) where
  mono := by
    rintro y v y' v' ⟨h1, h2⟩ ⟨h1', h2'⟩
    rw [dot_sum]
    apply add_nonneg
    · apply Finset.sum_nonneg
      intro a _
      simp only [Pi.sub_apply]
      have a1 := (h1 a).2 _ _ (h1' a).1
      have a2 := (h1' a).2 _ _ (h1 a).1
      linarith
    · apply Finset.sum_nonneg
      intro b _
      simp only [Pi.sub_apply]
      rw [h2 b, h2' b]
      nlinarith [mul_self_nonneg (y (.inr (.inr b)) - y' (.inr (.inr b)))]
  res := by
    intro w
    refine ⟨fun j => (w j - tvP c lam data w j) / c, ⟨fun a => disc_project hl hc _ _, fun b => ?_⟩, ?_⟩
    · simp only [tvP, Sum.elim_inr]
      field_simp
      ring
    · funext j
      simp only [Pi.sub_apply, Pi.smul_apply, smul_eq_mul]
      field_simp
  cont := by
    have hu : ∀ a : A, Continuous fun w : A ⊕ A ⊕ B → ℝ =>
        discU lam (w (.inl a)) (w (.inr (.inl a))) := by
      intro a
      simp only [discU_eq]
      fun_prop
    rw [continuous_pi_iff]
    rintro (a | a | b)
    · simp only [tvP, Sum.elim_inl]
      exact (continuous_apply _).div (hu a) fun w => (discU_pos _ _ _).ne'
    · simp only [tvP, Sum.elim_inl, Sum.elim_inr]
      exact (continuous_apply _).div (hu a) fun w => (discU_pos _ _ _).ne'
    · simp only [tvP, Sum.elim_inr]
      fun_prop

theorem disc_attained {lam y0 y1 v0 v1 : ℝ} (hl : 0 ≤ lam) (h : DiscNormal lam y0 y1 v0 v1) :
    lam * Real.sqrt (v0 ^ 2 + v1 ^ 2) = v0 * y0 + v1 * y1 := by
  apply le_antisymm
  · by_cases h0 : Real.sqrt (v0 ^ 2 + v1 ^ 2) = 0
    · have e : v0 ^ 2 + v1 ^ 2 = 0 := (Real.sqrt_eq_zero (by positivity)).mp h0
      have e0 : v0 = 0 := by nlinarith [sq_nonneg v0, sq_nonneg v1]
      have e1 : v1 = 0 := by nlinarith [sq_nonneg v0, sq_nonneg v1]
      rw [h0, e0, e1]
      simp
    · have hnn : 0 ≤ v0 ^ 2 + v1 ^ 2 := by positivity
      obtain ⟨s, hs⟩ : ∃ s, s = Real.sqrt (v0 ^ 2 + v1 ^ 2) := ⟨_, rfl⟩
      rw [← hs] at h0 ⊢
      have hs2 : s ^ 2 = v0 ^ 2 + v1 ^ 2 := by rw [hs]; exact Real.sq_sqrt hnn
      have hb : (lam * v0 / s) ^ 2 + (lam * v1 / s) ^ 2 ≤ lam ^ 2 := by
        have : (lam * v0 / s) ^ 2 + (lam * v1 / s) ^ 2 = lam ^ 2 * (v0 ^ 2 + v1 ^ 2) / s ^ 2 := by
          field_simp
        rw [this, hs2, mul_div_assoc, div_self (by rw [← hs2]; positivity), mul_one]
      have := h.2 _ _ hb
      have e : v0 * (lam * v0 / s) + v1 * (lam * v1 / s) = lam * s := by
        have : v0 * (lam * v0 / s) + v1 * (lam * v1 / s) = lam * (v0 ^ 2 + v1 ^ 2) / s := by
          field_simp
        rw [this, ← hs2]
        field_simp
      linarith
  · have := disc_inner (w0 := v0) (w1 := v1) hl h.1
    linarith

theorem tvK_mulVec (gx gy : Matrix A I ℝ) (R : Matrix B I ℝ) (x : I → ℝ) :
    (∀ a, (tvK gx gy R *ᵥ x) (.inl a) = (gx *ᵥ x) a) ∧
    (∀ a, (tvK gx gy R *ᵥ x) (.inr (.inl a)) = (gy *ᵥ x) a) ∧
    ∀ b, (tvK gx gy R *ᵥ x) (.inr (.inr b)) = (R *ᵥ x) b := ⟨fun _ => rfl, fun _ => rfl, fun _ => rfl⟩

/-- The primal part of a saddle point is a minimiser of the total variation functional. -/
theorem saddle_minimises {lam : ℝ} (hl : 0 ≤ lam) {gx gy : Matrix A I ℝ} {R : Matrix B I ℝ}
    {data : B → ℝ} {z : (I → ℝ) × (A ⊕ A ⊕ B → ℝ)}
    (h : Saddle (tvK gx gy R) (tvSub lam data) z) (x' : I → ℝ) :
    tvObj lam gx gy R data z.1 ≤ tvObj lam gx gy R data x' := by
  obtain ⟨x, y⟩ := z
  obtain ⟨h1, h2, h3⟩ := h
  simp only at h1 h2 h3
  have horth : y ⬝ᵥ tvK gx gy R *ᵥ (x' - x) = 0 := by
    rw [dotProduct_mulVec, h1, zero_dotProduct]
  rw [mulVec_sub, dot_sum] at horth
  simp only [Pi.sub_apply] at horth
  unfold tvObj
  rw [Finset.mul_sum, Finset.mul_sum, Finset.mul_sum, Finset.mul_sum]
  have hA : ∑ a, (lam * Real.sqrt ((gx *ᵥ x) a ^ 2 + (gy *ᵥ x) a ^ 2) +
      (y (.inl a) * ((tvK gx gy R *ᵥ x') (.inl a) - (tvK gx gy R *ᵥ x) (.inl a)) +
        y (.inr (.inl a)) * ((tvK gx gy R *ᵥ x') (.inr (.inl a)) -
          (tvK gx gy R *ᵥ x) (.inr (.inl a))))) ≤
      ∑ a, lam * Real.sqrt ((gx *ᵥ x') a ^ 2 + (gy *ᵥ x') a ^ 2) := by
    apply Finset.sum_le_sum
    intro a _
    have e1 := disc_attained hl (h2 a)
    have e2 := disc_inner (w0 := (gx *ᵥ x') a) (w1 := (gy *ᵥ x') a) hl (h2 a).1
    obtain ⟨k1, k2, -⟩ := tvK_mulVec gx gy R x
    obtain ⟨l1, l2, -⟩ := tvK_mulVec gx gy R x'
    rw [k1, k2] at e1
    rw [k1, k2, l1, l2]
    linarith
  have hB : ∑ b, (1 / 2 * ((R *ᵥ x) b - data b) ^ 2 + y (.inr (.inr b)) *
      ((tvK gx gy R *ᵥ x') (.inr (.inr b)) - (tvK gx gy R *ᵥ x) (.inr (.inr b)))) ≤
      ∑ b, 1 / 2 * ((R *ᵥ x') b - data b) ^ 2 := by
    apply Finset.sum_le_sum
    intro b _
    have e := h3 b
    obtain ⟨-, -, k⟩ := tvK_mulVec gx gy R x
    obtain ⟨-, -, l⟩ := tvK_mulVec gx gy R x'
    rw [k] at e
    have e' : y (.inr (.inr b)) = (R *ᵥ x) b - data b := by linarith
    rw [k, l, e']
    nlinarith [sq_nonneg ((R *ᵥ x') b - (R *ᵥ x) b)]
  rw [Finset.sum_add_distrib] at hA hB
  linarith

/-! ### Existence of a saddle point -/

/-- The smoothed functional of the image under the operator. -/
noncomputable def smoothObj (lam e : ℝ) (data : B → ℝ) (w : A ⊕ A ⊕ B → ℝ) : ℝ :=
  lam * ∑ a, Real.sqrt (w (.inl a) ^ 2 + w (.inr (.inl a)) ^ 2 + e ^ 2) +
    1 / 2 * ∑ b, (w (.inr (.inr b)) - data b) ^ 2

theorem smoothObj_continuous (lam e : ℝ) (data : B → ℝ) :
    Continuous (smoothObj (A := A) lam e data) := by
  unfold smoothObj
  fun_prop

/-- Value at zero of the functional smoothed by one. -/
noncomputable def smoothTop (A : Type) [Fintype A] (lam : ℝ) (data : B → ℝ) : ℝ :=
  smoothObj (A := A) lam 1 data 0

/-- Radius of a ball that contains all minimisers of the smoothed functionals. -/
noncomputable def smoothRad (A : Type) [Fintype A] (lam : ℝ) (data : B → ℝ) : ℝ :=
  smoothTop A lam data / lam + ∑ b, |data b| + (2 * smoothTop A lam data + 1)

theorem smoothTop_nonneg {lam : ℝ} (hl : 0 < lam) (data : B → ℝ) : 0 ≤ smoothTop A lam data := by
  unfold smoothTop smoothObj
  exact add_nonneg (mul_nonneg hl.le (Finset.sum_nonneg fun _ _ => Real.sqrt_nonneg _))
    (mul_nonneg (by norm_num) (Finset.sum_nonneg fun _ _ => sq_nonneg _))

theorem smoothRad_nonneg {lam : ℝ} (hl : 0 < lam) (data : B → ℝ) : 0 ≤ smoothRad A lam data := by
  have h := smoothTop_nonneg (A := A) hl data
  have h2 : 0 ≤ ∑ b, |data b| := Finset.sum_nonneg fun _ _ => abs_nonneg _
  unfold smoothRad
  have := div_nonneg h hl.le
  linarith

theorem smooth_zero_le {lam e : ℝ} (hl : 0 < lam) (he : 0 ≤ e) (he1 : e ≤ 1) (data : B → ℝ) :
    smoothObj (A := A) lam e data 0 ≤ smoothTop A lam data := by
  unfold smoothTop smoothObj
  apply add_le_add_left
  apply mul_le_mul_of_nonneg_left _ hl.le
  apply Finset.sum_le_sum
  intro a _
  apply Real.sqrt_le_sqrt
  nlinarith

theorem smooth_bounded {lam e : ℝ} (hl : 0 < lam) (data : B → ℝ) {w : A ⊕ A ⊕ B → ℝ}
    (h : smoothObj lam e data w ≤ smoothTop A lam data) : ‖w‖ ≤ smoothRad A lam data := by
  have hT := smoothTop_nonneg (A := A) hl data
  have hT' := div_nonneg hT hl.le
  have hD : 0 ≤ ∑ b, |data b| := Finset.sum_nonneg fun _ _ => abs_nonneg _
  have h1 : 0 ≤ ∑ a : A, Real.sqrt (w (.inl a) ^ 2 + w (.inr (.inl a)) ^ 2 + e ^ 2) :=
    Finset.sum_nonneg fun _ _ => Real.sqrt_nonneg _
  have h2 : 0 ≤ ∑ b, (w (.inr (.inr b)) - data b) ^ 2 := Finset.sum_nonneg fun _ _ => sq_nonneg _
  have h1' := mul_nonneg hl.le h1
  unfold smoothObj at h
  have hA : ∀ a : A, Real.sqrt (w (.inl a) ^ 2 + w (.inr (.inl a)) ^ 2 + e ^ 2) ≤
      smoothTop A lam data / lam := by
    intro a
    have := Finset.single_le_sum (f := fun a : A =>
      Real.sqrt (w (.inl a) ^ 2 + w (.inr (.inl a)) ^ 2 + e ^ 2))
      (fun i _ => Real.sqrt_nonneg _) (Finset.mem_univ a)
    rw [le_div_iff₀ hl]
    nlinarith
  rw [pi_norm_le_iff_of_nonneg (smoothRad_nonneg hl data)]
  have hle : smoothTop A lam data / lam ≤ smoothRad A lam data := by unfold smoothRad; linarith
  rintro (a | a | b)
  · refine le_trans ?_ ((hA a).trans hle)
    rw [Real.norm_eq_abs]
    apply Real.abs_le_sqrt
    nlinarith [sq_nonneg (w (.inr (.inl a))), sq_nonneg e]
  · refine le_trans ?_ ((hA a).trans hle)
    rw [Real.norm_eq_abs]
    apply Real.abs_le_sqrt
    nlinarith [sq_nonneg (w (.inl a)), sq_nonneg e]
  · have hb := Finset.single_le_sum (f := fun b : B => (w (.inr (.inr b)) - data b) ^ 2)
      (fun i _ => sq_nonneg _) (Finset.mem_univ b)
    have hd := Finset.single_le_sum (f := fun b : B => |data b|)
      (fun i _ => abs_nonneg _) (Finset.mem_univ b)
    have h3 : |w (.inr (.inr b)) - data b| ≤ 2 * smoothTop A lam data + 1 := by
      apply abs_le_of_sq_le_sq _ (by linarith)
      nlinarith
    rw [Real.norm_eq_abs]
    have h4 : |w (.inr (.inr b))| ≤ |w (.inr (.inr b)) - data b| + |data b| := by
      have := abs_add_le (w (.inr (.inr b)) - data b) (data b)
      rwa [sub_add_cancel] at this
    unfold smoothRad
    linarith

/-- The smoothed functional has a minimiser over the range of the operator. -/
theorem smooth_min {lam e : ℝ} (hl : 0 < lam) (he : 0 ≤ e) (he1 : e ≤ 1) (data : B → ℝ)
    (M : Matrix (A ⊕ A ⊕ B) I ℝ) :
    ∃ x : I → ℝ, ‖M *ᵥ x‖ ≤ smoothRad A lam data ∧
      ∀ x', smoothObj lam e data (M *ᵥ x) ≤ smoothObj lam e data (M *ᵥ x') := by
  obtain ⟨S, hS⟩ : ∃ S, S = LinearMap.range M.mulVecLin := ⟨_, rfl⟩
  have hcl : IsClosed (S : Set (A ⊕ A ⊕ B → ℝ)) := Submodule.closed_of_finiteDimensional S
  have hcomp : IsCompact (Metric.closedBall (0 : A ⊕ A ⊕ B → ℝ) (smoothRad A lam data) ∩ S) :=
    (isCompact_closedBall _ _).inter_right hcl
  have h0 : (0 : A ⊕ A ⊕ B → ℝ) ∈ Metric.closedBall (0 : A ⊕ A ⊕ B → ℝ) (smoothRad A lam data) ∩ S :=
    ⟨by simpa using smoothRad_nonneg hl data, S.zero_mem⟩
  obtain ⟨w, ⟨hw1, hw2⟩, hmin⟩ := hcomp.exists_isMinOn ⟨0, h0⟩
    (smoothObj_continuous lam e data).continuousOn
  rw [hS] at hw2
  obtain ⟨x, rfl⟩ := hw2
  refine ⟨x, by simpa using hw1, fun x' => ?_⟩
  by_cases hx : smoothObj lam e data (M *ᵥ x') ≤ smoothTop A lam data
  · apply hmin
    refine ⟨by simpa using smooth_bounded hl data hx, ?_⟩
    rw [hS]
    exact ⟨x', rfl⟩
  · have := (hmin h0).trans (smooth_zero_le hl he he1 data)
    exact le_trans this (not_le.mp hx).le

/-- The square root lies below its tangent. -/
theorem sqrt_tangent {P Q s : ℝ} (hs : 0 < s) (hP : s ^ 2 = P) (hQ : 0 ≤ Q) :
    Real.sqrt Q ≤ s + (Q - P) / (2 * s) := by
  have h := Real.sq_sqrt hQ
  rw [← sub_le_iff_le_add', le_div_iff₀ (by linarith)]
  nlinarith [sq_nonneg (Real.sqrt Q - s)]

/-- The dual variable that belongs to a minimiser of the smoothed functional. -/
noncomputable def smoothDual (lam e : ℝ) (data : B → ℝ) (w : A ⊕ A ⊕ B → ℝ) : A ⊕ A ⊕ B → ℝ :=
  Sum.elim (fun a => lam * w (.inl a) / Real.sqrt (w (.inl a) ^ 2 + w (.inr (.inl a)) ^ 2 + e ^ 2))
    (Sum.elim
      (fun a => lam * w (.inr (.inl a)) /
        Real.sqrt (w (.inl a) ^ 2 + w (.inr (.inl a)) ^ 2 + e ^ 2))
      (fun b => w (.inr (.inr b)) - data b))

theorem smooth_expand {lam e : ℝ} (hl : 0 < lam) (he : 0 < e) (data : B → ℝ)
    (w h : A ⊕ A ⊕ B → ℝ) : ∃ C : ℝ, ∀ t : ℝ,
    smoothObj lam e data (w + t • h) ≤
      smoothObj lam e data w + t * (smoothDual lam e data w ⬝ᵥ h) + t ^ 2 * C := by
  refine ⟨∑ a : A, lam * ((h (.inl a) ^ 2 + h (.inr (.inl a)) ^ 2) /
    (2 * Real.sqrt (w (.inl a) ^ 2 + w (.inr (.inl a)) ^ 2 + e ^ 2))) +
    ∑ b : B, 1 / 2 * h (.inr (.inr b)) ^ 2, fun t => ?_⟩
  rw [dot_sum]
  unfold smoothObj
  have hA : ∑ a, lam * Real.sqrt ((w + t • h) (.inl a) ^ 2 + (w + t • h) (.inr (.inl a)) ^ 2 + e ^ 2) ≤
      ∑ a, (lam * Real.sqrt (w (.inl a) ^ 2 + w (.inr (.inl a)) ^ 2 + e ^ 2) +
        t * (smoothDual lam e data w (.inl a) * h (.inl a) +
          smoothDual lam e data w (.inr (.inl a)) * h (.inr (.inl a))) +
        t ^ 2 * (lam * ((h (.inl a) ^ 2 + h (.inr (.inl a)) ^ 2) /
          (2 * Real.sqrt (w (.inl a) ^ 2 + w (.inr (.inl a)) ^ 2 + e ^ 2))))) := by
    apply Finset.sum_le_sum
    intro a _
    have hp : 0 < w (.inl a) ^ 2 + w (.inr (.inl a)) ^ 2 + e ^ 2 := by positivity
    have hs := Real.sqrt_pos.mpr hp
    have hs2 := Real.sq_sqrt hp.le
    simp only [smoothDual, Sum.elim_inl, Sum.elim_inr, Pi.add_apply, Pi.smul_apply, smul_eq_mul]
    have ht := sqrt_tangent (Q := (w (.inl a) + t * h (.inl a)) ^ 2 +
      (w (.inr (.inl a)) + t * h (.inr (.inl a))) ^ 2 + e ^ 2) hs hs2 (by positivity)
    refine (mul_le_mul_of_nonneg_left ht hl.le).trans (le_of_eq ?_)
    generalize Real.sqrt (w (.inl a) ^ 2 + w (.inr (.inl a)) ^ 2 + e ^ 2) = s at hs
    field_simp
    ring
  have hB : ∑ b, 1 / 2 * ((w + t • h) (.inr (.inr b)) - data b) ^ 2 =
      ∑ b, (1 / 2 * (w (.inr (.inr b)) - data b) ^ 2 +
        t * (smoothDual lam e data w (.inr (.inr b)) * h (.inr (.inr b))) +
        t ^ 2 * (1 / 2 * h (.inr (.inr b)) ^ 2)) := by
    apply Finset.sum_congr rfl
    intro b _
    simp only [smoothDual, Sum.elim_inr, Pi.add_apply, Pi.smul_apply, smul_eq_mul]
    ring
  simp only [Finset.sum_add_distrib, ← Finset.mul_sum] at hA hB ⊢
  linarith

theorem linear_zero {L C : ℝ} (h : ∀ t : ℝ, 0 ≤ t * L + t ^ 2 * C) : L = 0 := by
  have hK : (0 : ℝ) < 2 * (|C| + 1) := by positivity
  have h1 := h (-L / (2 * (|C| + 1)))
  have hC : C ≤ |C| + 1 := (le_abs_self C).trans (by linarith)
  have e : -L / (2 * (|C| + 1)) * L + (-L / (2 * (|C| + 1))) ^ 2 * C =
      L ^ 2 * (C - 2 * (|C| + 1)) / (2 * (|C| + 1)) ^ 2 := by
    field_simp
    ring
  rw [e, le_div_iff₀ (by positivity), zero_mul] at h1
  have : 0 ≤ |C| := abs_nonneg _
  by_contra hL
  have : 0 < L ^ 2 := by positivity
  nlinarith

theorem smooth_stationary {lam e : ℝ} (hl : 0 < lam) (he : 0 < e) (data : B → ℝ)
    {M : Matrix (A ⊕ A ⊕ B) I ℝ} {x : I → ℝ}
    (hmin : ∀ x', smoothObj lam e data (M *ᵥ x) ≤ smoothObj lam e data (M *ᵥ x')) :
    smoothDual lam e data (M *ᵥ x) ᵥ* M = 0 := by
  have key : ∀ h, (smoothDual lam e data (M *ᵥ x) ᵥ* M) ⬝ᵥ h = 0 := by
    intro h
    rw [← dotProduct_mulVec]
    obtain ⟨C, hC⟩ := smooth_expand hl he data (M *ᵥ x) (M *ᵥ h)
    apply linear_zero (C := C)
    intro t
    have h1 := hC t
    have h2 := hmin (x + t • h)
    rw [mulVec_add, mulVec_smul] at h2
    linarith
  funext i
  classical
  have := key (Pi.single i 1)
  simpa using this

theorem smooth_disc {lam e : ℝ} (hl : 0 < lam) (he : 0 < e) (w0 w1 : ℝ) :
    (lam * w0 / Real.sqrt (w0 ^ 2 + w1 ^ 2 + e ^ 2)) ^ 2 +
      (lam * w1 / Real.sqrt (w0 ^ 2 + w1 ^ 2 + e ^ 2)) ^ 2 ≤ lam ^ 2 ∧
    ∀ p q, p ^ 2 + q ^ 2 ≤ lam ^ 2 →
      w0 * (p - lam * w0 / Real.sqrt (w0 ^ 2 + w1 ^ 2 + e ^ 2)) +
      w1 * (q - lam * w1 / Real.sqrt (w0 ^ 2 + w1 ^ 2 + e ^ 2)) ≤ lam * e := by
  have hp : 0 < w0 ^ 2 + w1 ^ 2 + e ^ 2 := by positivity
  have hs := Real.sqrt_pos.mpr hp
  have hs2 := Real.sq_sqrt hp.le
  generalize Real.sqrt (w0 ^ 2 + w1 ^ 2 + e ^ 2) = s at hs hs2
  constructor
  · rw [div_pow, div_pow, ← add_div, div_le_iff₀ (by positivity), hs2]
    nlinarith [mul_nonneg (sq_nonneg lam) (sq_nonneg e)]
  · intro p q hpq
    have hi := disc_inner (w0 := w0) (w1 := w1) hl.le hpq
    have hn : 0 ≤ w0 ^ 2 + w1 ^ 2 := by positivity
    have hr0 := Real.sqrt_nonneg (w0 ^ 2 + w1 ^ 2)
    have hr2 := Real.sq_sqrt hn
    generalize Real.sqrt (w0 ^ 2 + w1 ^ 2) = r at hi hr0 hr2
    have e1 : w0 * (p - lam * w0 / s) + w1 * (q - lam * w1 / s) =
        (w0 * p + w1 * q) - lam * (w0 ^ 2 + w1 ^ 2) / s := by ring
    have hsr : s ≤ r + e := by
      apply le_of_sq_le_sq _ (by linarith)
      nlinarith
    have h3 : r - e ≤ r ^ 2 / s := by
      rw [le_div_iff₀ hs]
      rcases le_total r e with h | h
      · nlinarith [mul_nonneg (sub_nonneg.mpr h) hs.le, sq_nonneg r]
      · nlinarith [mul_le_mul_of_nonneg_left hsr (sub_nonneg.mpr h), sq_nonneg e]
    rw [e1, ← hr2, mul_div_assoc]
    nlinarith [mul_le_mul_of_nonneg_left h3 hl.le]

/-- A saddle point exists, whatever the operator and the data. -/
theorem saddle_exists {lam : ℝ} (hl : 0 < lam) (data : B → ℝ) (M : Matrix (A ⊕ A ⊕ B) I ℝ) :
    ∃ z, Saddle M (tvSub (A := A) lam data) z := by
  have hε : ∀ n : ℕ, (0 : ℝ) < 1 / ((n : ℝ) + 1) := fun n => by positivity
  have hε1 : ∀ n : ℕ, (1 : ℝ) / ((n : ℝ) + 1) ≤ 1 := fun n => by
    rw [div_le_one (by positivity)]; have := Nat.cast_nonneg (α := ℝ) n; linarith
  choose x hxn hxm using fun n : ℕ => smooth_min hl (hε n).le (hε1 n) data M
  have hstat := fun n => smooth_stationary hl (hε n) data (hxm n)
  obtain ⟨S, hS⟩ : ∃ S, S = LinearMap.range M.mulVecLin := ⟨_, rfl⟩
  have hcl : IsClosed (S : Set (A ⊕ A ⊕ B → ℝ)) := Submodule.closed_of_finiteDimensional S
  have hd : ∀ n : ℕ, ‖smoothDual lam (1 / ((n : ℝ) + 1)) data (M *ᵥ x n)‖ ≤
      lam + (smoothRad A lam data + ‖data‖) := by
    intro n
    have hR := smoothRad_nonneg (A := A) hl data
    have hN := norm_nonneg data
    rw [pi_norm_le_iff_of_nonneg (by linarith)]
    rintro (a | a | b)
    · have := (smooth_disc hl (hε n) ((M *ᵥ x n) (.inl a)) ((M *ᵥ x n) (.inr (.inl a)))).1
      rw [Real.norm_eq_abs]
      refine le_trans (abs_le_of_sq_le_sq ?_ hl.le) (by linarith : lam ≤ _)
      simp only [smoothDual, Sum.elim_inl]
      linarith [sq_nonneg (lam * (M *ᵥ x n) (.inr (.inl a)) / Real.sqrt ((M *ᵥ x n) (.inl a) ^ 2 +
        (M *ᵥ x n) (.inr (.inl a)) ^ 2 + (1 / ((n : ℝ) + 1)) ^ 2))]
    · have := (smooth_disc hl (hε n) ((M *ᵥ x n) (.inl a)) ((M *ᵥ x n) (.inr (.inl a)))).1
      rw [Real.norm_eq_abs]
      refine le_trans (abs_le_of_sq_le_sq ?_ hl.le) (by linarith : lam ≤ _)
      simp only [smoothDual, Sum.elim_inl, Sum.elim_inr]
      linarith [sq_nonneg (lam * (M *ᵥ x n) (.inl a) / Real.sqrt ((M *ᵥ x n) (.inl a) ^ 2 +
        (M *ᵥ x n) (.inr (.inl a)) ^ 2 + (1 / ((n : ℝ) + 1)) ^ 2))]
    · simp only [smoothDual, Sum.elim_inr]
      have h1 := (norm_le_pi_norm (M *ᵥ x n) (.inr (.inr b))).trans (hxn n)
      have h2 := norm_le_pi_norm data b
      have := norm_sub_le ((M *ᵥ x n) (.inr (.inr b))) (data b)
      linarith
  obtain ⟨⟨w, y⟩, -, φ, hφ, hlim⟩ := ((isCompact_closedBall (0 : A ⊕ A ⊕ B → ℝ)
      (smoothRad A lam data)).prod (isCompact_closedBall (0 : A ⊕ A ⊕ B → ℝ)
        (lam + (smoothRad A lam data + ‖data‖)))).tendsto_subseq
    (x := fun n : ℕ => (M *ᵥ x n, smoothDual lam (1 / ((n : ℝ) + 1)) data (M *ᵥ x n)))
    (fun n => ⟨by simpa using hxn n, by simpa using hd n⟩)
  have hw : Tendsto (fun n => M *ᵥ x (φ n)) atTop (𝓝 w) :=
    (continuous_fst.tendsto _).comp hlim
  have hy : Tendsto (fun n => smoothDual lam (1 / ((φ n : ℝ) + 1)) data (M *ᵥ x (φ n))) atTop (𝓝 y) :=
    (continuous_snd.tendsto _).comp hlim
  have hwS : w ∈ (S : Set (A ⊕ A ⊕ B → ℝ)) := hcl.mem_of_tendsto hw
    (Eventually.of_forall fun n => by rw [hS]; exact ⟨x (φ n), rfl⟩)
  have hεlim : Tendsto (fun n => (1 : ℝ) / ((φ n : ℝ) + 1)) atTop (𝓝 0) :=
    tendsto_one_div_add_atTop_nhds_zero_nat.comp hφ.tendsto_atTop
  rw [hS] at hwS
  obtain ⟨xb, hxb⟩ := hwS
  have hwc : ∀ j, Tendsto (fun n => (M *ᵥ x (φ n)) j) atTop (𝓝 (w j)) := fun j =>
    ((continuous_apply j).tendsto _).comp hw
  have hyc : ∀ j, Tendsto (fun n => smoothDual lam (1 / ((φ n : ℝ) + 1)) data (M *ᵥ x (φ n)) j) atTop
      (𝓝 (y j)) := fun j => ((continuous_apply j).tendsto _).comp hy
  have hxb' : M *ᵥ xb = w := hxb
  refine ⟨(xb, y), ?_, ?_, ?_⟩
  · have hcont : Continuous fun y : A ⊕ A ⊕ B → ℝ => y ᵥ* M := by
      apply continuous_pi
      intro i
      simp only [vecMul, dotProduct]
      fun_prop
    have := (hcont.tendsto y).comp hy
    refine tendsto_nhds_unique this ?_
    refine tendsto_const_nhds.congr fun n => ?_
    exact (hstat (φ n)).symm
  · intro a
    simp only [hxb']
    constructor
    · refine le_of_tendsto (((hyc _).pow 2).add ((hyc _).pow 2)) (Eventually.of_forall fun n => ?_)
      exact (smooth_disc hl (hε (φ n)) ((M *ᵥ x (φ n)) (.inl a)) ((M *ᵥ x (φ n)) (.inr (.inl a)))).1
    · intro p q hpq
      have hL := ((hwc (.inl a)).mul ((hyc (.inl a)).const_sub p)).add
        ((hwc (.inr (.inl a))).mul ((hyc (.inr (.inl a))).const_sub q))
      have hR := hεlim.const_mul lam
      rw [mul_zero] at hR
      refine le_of_tendsto_of_tendsto' hL hR fun n => ?_
      exact (smooth_disc hl (hε (φ n)) ((M *ᵥ x (φ n)) (.inl a))
        ((M *ᵥ x (φ n)) (.inr (.inl a)))).2 p q hpq
  · intro b
    simp only [hxb']
    have h1 : Tendsto (fun n => (M *ᵥ x (φ n)) (.inr (.inr b)) - data b) atTop
        (𝓝 (w (.inr (.inr b)) - data b)) := (hwc _).sub_const _
    have := tendsto_nhds_unique (hyc (.inr (.inr b))) h1
    linarith

end Tomopy.Iter.Pdhg
