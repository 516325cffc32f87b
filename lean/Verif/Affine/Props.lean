import Verif.Affine.Model
import Mathlib.LinearAlgebra.FiniteDimensional.Lemmas
import Mathlib.LinearAlgebra.Matrix.ToLin
import Mathlib.Tactic.LinearCombination
import Mathlib.Tactic.Linarith
import Mathlib.Tactic.FieldSimp
import Mathlib.Tactic.FinCases

/-! C128, C129: affine maps fitted to marker points. -/
set_option linter.unusedSectionVars false

namespace Tomopy.Affine
open Matrix

variable {n : Nat}

/-- `Aᵀ A v = 0` makes `A v = 0`. -/
theorem mulVec_zero_of_normal {A : Matrix (Fin n) (Fin 3) ℝ} {v : Fin 3 → ℝ}
    (h : Aᵀ *ᵥ (A *ᵥ v) = 0) : A *ᵥ v = 0 := by
  have h1 : (A *ᵥ v) ⬝ᵥ (A *ᵥ v) = 0 := by
    have := dotProduct_mulVec v Aᵀ (A *ᵥ v)
    rw [h, dotProduct_zero, vecMul_transpose] at this
    exact this.symm
  exact dotProduct_self_eq_zero.1 h1

/-- A combination of the rows that `A` sends to zero is zero. -/
theorem row_zero {A : Matrix (Fin n) (Fin 3) ℝ} {z : Fin n → ℝ}
    (h : A *ᵥ (Aᵀ *ᵥ z) = 0) : Aᵀ *ᵥ z = 0 := by
  have h1 : (Aᵀ *ᵥ z) ⬝ᵥ (Aᵀ *ᵥ z) = 0 := by
    have := dotProduct_mulVec z A (Aᵀ *ᵥ z)
    rw [h, dotProduct_zero, ← mulVec_transpose] at this
    exact this.symm
  exact dotProduct_self_eq_zero.1 h1

theorem col_mul {m k l : Type} [Fintype k] (A : Matrix m k ℝ) (X : Matrix k l ℝ) (j : l) :
    (A * X).col j = A *ᵥ X.col j := by
  ext i; rfl

theorem ext_col {m l : Type} {X Y : Matrix m l ℝ} (h : ∀ j, X.col j = Y.col j) : X = Y := by
  ext i j
  exact congrFun (h j) i

/-- The least squares solution of least norm is unique. -/
theorem lstsq_unique {A B : Matrix (Fin n) (Fin 3) ℝ} {X Y : Matrix (Fin 3) (Fin 3) ℝ}
    (hX : IsLstsq A B X) (hY : IsLstsq A B Y) : X = Y := by
  obtain ⟨hx, Z, rfl⟩ := hX
  obtain ⟨hy, W, rfl⟩ := hY
  refine ext_col fun j => ?_
  have e : Aᵀ *ᵥ (A *ᵥ (Aᵀ *ᵥ (Z.col j - W.col j))) = 0 := by
    have h1 := congrArg (fun M => M.col j) (hx.trans hy.symm)
    simp only [col_mul] at h1
    rw [mulVec_sub, mulVec_sub, mulVec_sub, h1, sub_self]
  have h2 := row_zero (mulVec_zero_of_normal e)
  rw [mulVec_sub, sub_eq_zero] at h2
  rw [col_mul, col_mul, h2]

/-- It exists for all points. -/
theorem lstsq_exists (A B : Matrix (Fin n) (Fin 3) ℝ) : ∃ X, IsLstsq A B X := by
  have key : ∀ b : Fin n → ℝ, ∃ z : Fin n → ℝ, Aᵀ *ᵥ (A *ᵥ (Aᵀ *ᵥ z)) = Aᵀ *ᵥ b := by
    intro b
    let R := LinearMap.range (Aᵀ).mulVecLin
    let T : R →ₗ[ℝ] R := ((Aᵀ).mulVecLin.comp (A.mulVecLin.comp R.subtype)).codRestrict R
      fun v => ⟨A *ᵥ v, rfl⟩
    have hinj : Function.Injective T := by
      rw [injective_iff_map_eq_zero]
      rintro ⟨v, z, rfl⟩ hv
      have hv' : Aᵀ *ᵥ (A *ᵥ (Aᵀ *ᵥ z)) = 0 := congrArg Subtype.val hv
      exact Subtype.ext (row_zero (mulVec_zero_of_normal hv'))
    obtain ⟨⟨v, z, rfl⟩, hv⟩ := (LinearMap.injective_iff_surjective.1 hinj) ⟨Aᵀ *ᵥ b, b, rfl⟩
    exact ⟨z, congrArg Subtype.val hv⟩
  choose z hz using key
  refine ⟨Aᵀ * Matrix.of fun i j => z (B.col j) i, ?_, _, rfl⟩
  refine ext_col fun j => ?_
  simp only [col_mul]
  exact hz (B.col j)

theorem self_nonneg {m : Type} [Fintype m] (v : m → ℝ) : 0 ≤ v ⬝ᵥ v :=
  Finset.sum_nonneg fun i _ => mul_self_nonneg (v i)

/-- Sum of the squared components of all columns. -/
def sq (R : Matrix (Fin n) (Fin 3) ℝ) : ℝ := ∑ j, R.col j ⬝ᵥ R.col j

/-- It minimises the squared residual. -/
theorem lstsq_least {A B : Matrix (Fin n) (Fin 3) ℝ} {X : Matrix (Fin 3) (Fin 3) ℝ}
    (hX : IsLstsq A B X) (Y : Matrix (Fin 3) (Fin 3) ℝ) : sq (A * X - B) ≤ sq (A * Y - B) := by
  refine Finset.sum_le_sum fun j _ => ?_
  have h0 := congrArg (fun M => M.col j) hX.1
  simp only [col_mul] at h0
  have e1 : (A * X - B).col j = A *ᵥ X.col j - B.col j := by ext i; rfl
  have e2 : (A * Y - B).col j = (A *ᵥ X.col j - B.col j) + A *ᵥ (Y.col j - X.col j) := by
    rw [mulVec_sub]
    ext i
    simp only [Matrix.col_apply, Matrix.sub_apply, Pi.add_apply, Pi.sub_apply]
    rw [show (A * Y) i j = (A *ᵥ Y.col j) i from rfl]
    ring
  have hz : (A *ᵥ X.col j - B.col j) ⬝ᵥ (A *ᵥ (Y.col j - X.col j)) = 0 := by
    rw [dotProduct_mulVec, ← mulVec_transpose, mulVec_sub, h0, sub_self, zero_dotProduct]
  rw [e1, e2, add_dotProduct, dotProduct_add, dotProduct_add, hz,
    dotProduct_comm (A *ᵥ (Y.col j - X.col j)), hz]
  have := self_nonneg (A *ᵥ (Y.col j - X.col j))
  linarith

/-- Among all least squares solutions it is the smallest. -/
theorem lstsq_smallest {A B : Matrix (Fin n) (Fin 3) ℝ} {X : Matrix (Fin 3) (Fin 3) ℝ}
    (hX : IsLstsq A B X) (Y : Matrix (Fin 3) (Fin 3) ℝ) (hY : Aᵀ * (A * Y) = Aᵀ * B) :
    sq X ≤ sq Y := by
  refine Finset.sum_le_sum fun j _ => ?_
  obtain ⟨h, Z, rfl⟩ := hX
  have h0 := congrArg (fun M => M.col j) (hY.trans h.symm)
  simp only [col_mul] at h0
  have h1 : A *ᵥ (Y.col j - Aᵀ *ᵥ Z.col j) = 0 := by
    refine mulVec_zero_of_normal ?_
    rw [mulVec_sub, mulVec_sub, h0, sub_self]
  have hz : (Aᵀ *ᵥ Z.col j) ⬝ᵥ (Y.col j - Aᵀ *ᵥ Z.col j) = 0 := by
    rw [mulVec_transpose, ← dotProduct_mulVec, ← mulVec_transpose, h1, dotProduct_zero]
  have e : Y.col j = Aᵀ *ᵥ Z.col j + (Y.col j - Aᵀ *ᵥ Z.col j) := by
    rw [add_sub_cancel]
  rw [col_mul]
  conv_rhs => rw [e]
  rw [add_dotProduct, dotProduct_add, dotProduct_add, hz, dotProduct_comm (Y.col j - _), hz]
  have := self_nonneg (Y.col j - Aᵀ *ᵥ Z.col j)
  linarith

/-! ### calc_affine_transform -/

/-- Specification: all points are on one line that does not go through the origin. -/
def OnLineOffOrigin (p : Fin n → ℝ × ℝ) : Prop :=
  ∃ a b : ℝ, ∀ i, a * (p i).1 + b * (p i).2 = 1

/-- Specification: all points are on one line (or there are none or one). -/
def Collinear (p : Fin n → ℝ × ℝ) : Prop :=
  ∃ a b c : ℝ, (a ≠ 0 ∨ b ≠ 0 ∨ c ≠ 0) ∧ ∀ i, a * (p i).1 + b * (p i).2 + c = 0

/-- Specification: a point under the map of a matrix. -/
def apply (F : Matrix (Fin 3) (Fin 3) ℝ) (q : ℝ × ℝ) : Fin 3 → ℝ := F *ᵥ ![q.1, q.2, 1]

theorem pad_mulVec (p : Fin n → ℝ × ℝ) (v : Fin 3 → ℝ) (i : Fin n) :
    (pad p *ᵥ v) i = (p i).1 * v 0 + (p i).2 * v 1 + v 2 := by
  simp [pad, mulVec, dotProduct, Fin.sum_univ_three]

theorem transpose_pad_mulVec (p : Fin n → ℝ × ℝ) (z : Fin n → ℝ) :
    ((pad p)ᵀ *ᵥ z) 0 = ∑ i, (p i).1 * z i ∧ ((pad p)ᵀ *ᵥ z) 1 = ∑ i, (p i).2 * z i ∧
      ((pad p)ᵀ *ᵥ z) 2 = ∑ i, z i := by
  refine ⟨?_, ?_, ?_⟩ <;> simp [pad, mulVec, dotProduct]

/-- The column of `X` that is the last row of the result. -/
theorem last_col {source target : Fin n → ℝ × ℝ} {X : Matrix (Fin 3) (Fin 3) ℝ}
    (h : IsLstsq (pad source) (pad target) X) :
    (∀ i, (pad source *ᵥ X.col 2) i = 1) ∧ ∃ z, X.col 2 = (pad source)ᵀ *ᵥ z := by
  obtain ⟨h1, Z, hZ⟩ := h
  refine ⟨?_, Z.col 2, by rw [hZ, col_mul]⟩
  have e : pad source *ᵥ ![0, 0, 1] = (pad target).col 2 := by
    ext i
    rw [pad_mulVec]
    simp [pad]
  have h2 := congrArg (fun M => M.col 2) h1
  simp only [col_mul] at h2
  rw [← e, ← sub_eq_zero, ← mulVec_sub, ← mulVec_sub] at h2
  have h3 := mulVec_zero_of_normal h2
  rw [mulVec_sub, sub_eq_zero] at h3
  intro i
  rw [h3, pad_mulVec]
  simp

/-- **C128** A matrix is returned for all points, and only one. -/
theorem affine_defined (source target : Fin n → ℝ × ℝ) : ∃! F, CalcAffine source target F := by
  obtain ⟨X, hX⟩ := lstsq_exists (pad source) (pad target)
  refine ⟨Xᵀ, ⟨X, hX, rfl⟩, ?_⟩
  rintro F ⟨Y, hY, rfl⟩
  rw [lstsq_unique hY hX]

/-- **C128** The last row of the result is 0 0 1 exactly if the source points are not all on one
line off the origin. -/
theorem affine_last_row_iff {source target : Fin n → ℝ × ℝ} {F : Matrix (Fin 3) (Fin 3) ℝ}
    (h : CalcAffine source target F) :
    (F 2 0 = 0 ∧ F 2 1 = 0 ∧ F 2 2 = 1) ↔ ¬ OnLineOffOrigin source := by
  obtain ⟨X, hX, rfl⟩ := h
  obtain ⟨h1, z, hz⟩ := last_col hX
  obtain ⟨t0, t1, t2⟩ := transpose_pad_mulVec source z
  rw [← hz] at t0 t1 t2
  simp only [pad_mulVec, Matrix.col_apply] at h1 t0 t1 t2
  simp only [Matrix.transpose_apply]
  constructor
  · rintro ⟨a0, a1, a2⟩ ⟨a, b, hl⟩
    have : ∑ i, z i = a * ∑ i, (source i).1 * z i + b * ∑ i, (source i).2 * z i := by
      rw [Finset.mul_sum, Finset.mul_sum, ← Finset.sum_add_distrib]
      refine Finset.sum_congr rfl fun i _ => ?_
      linear_combination (-(z i)) * hl i
    rw [← t0, ← t1, ← t2, a0, a1, a2] at this
    norm_num at this
  · intro hn
    have k2 : X 2 2 - 1 = 0 := by
      by_contra hne
      refine hn ⟨-(X 0 2) / (X 2 2 - 1), -(X 1 2) / (X 2 2 - 1), fun i => ?_⟩
      field_simp
      linear_combination (-1) * h1 i
    have hk : ∀ i, (source i).1 * X 0 2 + (source i).2 * X 1 2 = 0 := by
      intro i
      linear_combination h1 i - k2
    have hsum : X 0 2 * X 0 2 + X 1 2 * X 1 2 = 0 := by
      have : X 0 2 * X 0 2 + X 1 2 * X 1 2 = ∑ i, z i * ((source i).1 * X 0 2 + (source i).2 * X 1 2) := by
        conv_lhs => rw [t0, t1]
        rw [← t0, ← t1, t0, t1]
        rw [Finset.sum_mul, Finset.sum_mul, ← Finset.sum_add_distrib]
        refine Finset.sum_congr rfl fun i _ => ?_
        rw [← t0, ← t1]
        ring
      rw [this]
      exact Finset.sum_eq_zero fun i _ => by rw [hk i, mul_zero]
    have s0 := mul_self_nonneg (X 0 2)
    have s1 := mul_self_nonneg (X 1 2)
    exact ⟨mul_self_eq_zero.1 (by linarith), mul_self_eq_zero.1 (by linarith), by linarith⟩

/-- **C129** If some matrix maps every source point to its target, the result does so too. -/
theorem affine_fits {source target : Fin n → ℝ × ℝ} {F G : Matrix (Fin 3) (Fin 3) ℝ}
    (h : CalcAffine source target F)
    (hG : ∀ i, apply G (source i) = ![(target i).1, (target i).2, 1]) (i : Fin n) :
    apply F (source i) = ![(target i).1, (target i).2, 1] := by
  obtain ⟨X, hX, rfl⟩ := h
  have hB : pad target = pad source * Gᵀ := by
    ext i j
    have := congrFun (hG i) j
    rw [show pad target i j = ![(target i).1, (target i).2, 1] j from rfl, ← this]
    simp only [apply, mulVec, Matrix.mul_apply, dotProduct, Matrix.transpose_apply]
    refine Finset.sum_congr rfl fun k _ => ?_
    rw [mul_comm]
    rfl
  have hAX : pad source * X = pad target := by
    refine ext_col fun j => ?_
    have h2 := congrArg (fun M => M.col j) hX.1
    simp only [hB, col_mul] at h2 ⊢
    rw [← sub_eq_zero, ← mulVec_sub, ← mulVec_sub] at h2
    have h3 := mulVec_zero_of_normal h2
    rwa [mulVec_sub, sub_eq_zero] at h3
  ext j
  have := congrFun (congrFun hAX i) j
  rw [show pad target i j = ![(target i).1, (target i).2, 1] j from rfl] at this
  rw [← this]
  simp only [apply, mulVec, Matrix.mul_apply, dotProduct, Matrix.transpose_apply]
  refine Finset.sum_congr rfl fun k _ => ?_
  rw [mul_comm]
  rfl

/-- **C129** The result is a best fit for all points: no matrix has a smaller sum of squared
distances to the targets. -/
theorem affine_best {source target : Fin n → ℝ × ℝ} {F : Matrix (Fin 3) (Fin 3) ℝ}
    (h : CalcAffine source target F) (G : Matrix (Fin 3) (Fin 3) ℝ) :
    ∑ i, ∑ j, (apply F (source i) j - ![(target i).1, (target i).2, 1] j) ^ 2 ≤
      ∑ i, ∑ j, (apply G (source i) j - ![(target i).1, (target i).2, 1] j) ^ 2 := by
  obtain ⟨X, hX, rfl⟩ := h
  have e : ∀ Y : Matrix (Fin 3) (Fin 3) ℝ,
      ∑ i, ∑ j, (apply Yᵀ (source i) j - ![(target i).1, (target i).2, 1] j) ^ 2
        = sq (pad source * Y - pad target) := by
    intro Y
    unfold sq
    rw [Finset.sum_comm]
    refine Finset.sum_congr rfl fun j _ => ?_
    simp only [dotProduct]
    refine Finset.sum_congr rfl fun i _ => ?_
    rw [pow_two]
    have : apply Yᵀ (source i) j - ![(target i).1, (target i).2, 1] j
        = (pad source * Y - pad target).col j i := by
      simp only [Matrix.col_apply, Matrix.sub_apply]
      congr 1
      simp only [apply, mulVec, Matrix.mul_apply, dotProduct, Matrix.transpose_apply]
      refine Finset.sum_congr rfl fun k _ => ?_
      rw [mul_comm]
      rfl
    rw [this]
  have := lstsq_least hX Gᵀ
  rw [← e, ← e, Matrix.transpose_transpose] at this
  exact this

/-- **C129** Every affine map is recovered from the images of the points exactly if the points are
not on one line. -/
theorem affine_recovers_iff (source : Fin n → ℝ × ℝ) :
    (∀ (G F : Matrix (Fin 3) (Fin 3) ℝ) (target : Fin n → ℝ × ℝ),
      (∀ i, apply G (source i) = ![(target i).1, (target i).2, 1]) →
      CalcAffine source target F → F = G) ↔ ¬ Collinear source := by
  constructor
  · rintro h ⟨a, b, c, hne, hl⟩
    obtain ⟨F, hF, -⟩ := affine_defined source source
    have hid : ∀ i, apply 1 (source i) = ![(source i).1, (source i).2, 1] := by
      intro i; simp [apply]
    have h2 : ∀ i, apply (1 + Matrix.of ![![a, b, c], 0, 0]) (source i)
        = ![(source i).1, (source i).2, 1] := by
      intro i
      rw [apply, add_mulVec, ← apply, hid]
      have : (Matrix.of ![![a, b, c], 0, 0] : Matrix (Fin 3) (Fin 3) ℝ)
          *ᵥ ![(source i).1, (source i).2, 1] = 0 := by
        ext j
        fin_cases j
        · simp [mulVec, dotProduct, Fin.sum_univ_three, hl i]
        · simp [mulVec, dotProduct]
        · simp [mulVec, dotProduct]
      rw [this, add_zero]
    have e1 := h 1 F source hid hF
    have e2 := h _ F source h2 hF
    rw [e1] at e2
    have e3 : ∀ j, (Matrix.of ![![a, b, c], 0, 0] : Matrix (Fin 3) (Fin 3) ℝ) 0 j = 0 := by
      intro j
      have := congrFun (congrFun e2 0) j
      rw [Matrix.add_apply] at this
      linarith
    have a0 : a = 0 := by simpa using e3 0
    have b0 : b = 0 := by simpa using e3 1
    have c0 : c = 0 := by simpa using e3 2
    rcases hne with h | h | h
    · exact h a0
    · exact h b0
    · exact h c0
  · intro hn G F target hG hF
    have hfit := affine_fits hF hG
    ext j k
    by_contra hne
    apply hn
    refine ⟨F j 0 - G j 0, F j 1 - G j 1, F j 2 - G j 2, ?_, ?_⟩
    · fin_cases k
      · exact Or.inl (sub_ne_zero.2 hne)
      · exact Or.inr (Or.inl (sub_ne_zero.2 hne))
      · exact Or.inr (Or.inr (sub_ne_zero.2 hne))
    · intro i
      have h1 := congrFun ((hfit i).trans (hG i).symm) j
      simp only [apply, mulVec, dotProduct, Fin.sum_univ_three] at h1
      simp at h1
      linear_combination h1

/-- **C128 (refutation)** One marker at (1, 1): the last row of the result is 1/3 1/3 1/3. -/
theorem affine_one_point (target : Fin 1 → ℝ × ℝ) (F : Matrix (Fin 3) (Fin 3) ℝ)
    (h : CalcAffine (fun _ : Fin 1 => (1, 1)) target F) :
    F 2 0 = 1 / 3 ∧ F 2 1 = 1 / 3 ∧ F 2 2 = 1 / 3 := by
  obtain ⟨X, hX, rfl⟩ := h
  obtain ⟨h1, z, hz⟩ := last_col hX
  obtain ⟨t0, t1, t2⟩ := transpose_pad_mulVec (fun _ : Fin 1 => ((1 : ℝ), (1 : ℝ))) z
  rw [← hz] at t0 t1 t2
  have h0 := h1 0
  simp only [pad_mulVec, Matrix.col_apply] at h0 t0 t1 t2
  simp at h0 t0 t1 t2
  simp only [Matrix.transpose_apply]
  refine ⟨?_, ?_, ?_⟩ <;> linarith

/-- The three corners of a triangle satisfy the hypotheses of the exact statements. -/
example : ¬ Collinear (![(0, 0), (1, 0), (0, 1)] : Fin 3 → ℝ × ℝ) ∧
    ¬ OnLineOffOrigin (![(0, 0), (1, 0), (0, 1)] : Fin 3 → ℝ × ℝ) := by
  constructor
  · rintro ⟨a, b, c, hne, h⟩
    have h0 := h 0
    have h1 := h 1
    have h2 := h 2
    simp at h0 h1 h2
    rw [h0] at h1 h2
    simp at h1 h2
    rcases hne with e | e | e
    · exact e h1
    · exact e h2
    · exact e h0
  · rintro ⟨a, b, h⟩
    have := h 0
    simp at this

end Tomopy.Affine
