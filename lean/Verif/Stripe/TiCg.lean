import Verif.Stripe.TiModel
import Mathlib.LinearAlgebra.SesquilinearForm.Basic
import Mathlib.LinearAlgebra.Dimension.StrongRankCondition
import Mathlib.LinearAlgebra.Dimension.Constructions
import Mathlib.LinearAlgebra.Dimension.Finite
import Mathlib.Tactic.Linarith
import Mathlib.Tactic.FieldSimp
import Mathlib.Tactic.Ring
import Mathlib.Tactic.LinearCombination

/-! The method of conjugate gradients for a symmetric positive definite matrix, used for C82. -/
set_option linter.unusedSectionVars false

namespace Tomopy.Ti
open Matrix

variable {K : Type} [Field K] [LinearOrder K] [IsStrictOrderedRing K] {n : Nat}

theorem dot_self_nonneg (x : Fin n → K) : 0 ≤ x ⬝ᵥ x :=
  Finset.sum_nonneg fun i _ => mul_self_nonneg (x i)

theorem dot_self_eq_zero {x : Fin n → K} (h : x ⬝ᵥ x = 0) : x = 0 := by
  funext i
  have := (Finset.sum_eq_zero_iff_of_nonneg fun i _ => mul_self_nonneg (x i)).1 h i (Finset.mem_univ i)
  exact mul_self_eq_zero.1 this

/-- Nonzero vectors that are orthogonal to each other: at most `n` of them. -/
theorem orthogonal_le (m : Nat) (v : Fin m → Fin n → K) (h0 : ∀ i, v i ≠ 0)
    (h : ∀ i j, i < j → v i ⬝ᵥ v j = 0) : m ≤ n := by
  let B : (Fin n → K) →ₗ[K] (Fin n → K) →ₗ[K] K :=
    LinearMap.mk₂ K (fun x y => x ⬝ᵥ y) (fun x y z => add_dotProduct x y z)
      (fun c x y => smul_dotProduct c x y) (fun x y z => dotProduct_add x y z)
      (fun c x y => dotProduct_smul c x y)
  have hi : LinearIndependent K v := by
    refine LinearMap.linearIndependent_of_isOrthoᵢ (B := B) ?_ fun i hz => h0 i (dot_self_eq_zero hz)
    rw [LinearMap.isOrthoᵢ_def]
    intro i j hij
    rcases lt_or_gt_of_ne hij with hlt | hlt
    · exact h i j hlt
    · show v i ⬝ᵥ v j = 0
      rw [dotProduct_comm]
      exact h j i hlt
  have := hi.fintype_card_le_finrank
  simpa using this

/-- A symmetric positive definite matrix, as a function. -/
structure Spd (A : (Fin n → K) → Fin n → K) : Prop where
  add : ∀ x y, A (x + y) = A x + A y
  smul : ∀ (c : K) x, A (c • x) = c • A x
  symm : ∀ x y, x ⬝ᵥ A y = A x ⬝ᵥ y
  pos : ∀ x, x ⬝ᵥ A x = 0 → x = 0

/-- One step of the iteration. -/
def step (A : (Fin n → K) → Fin n → K) (s : (Fin n → K) × (Fin n → K)) : (Fin n → K) × (Fin n → K) :=
  let a := s.1 ⬝ᵥ s.2 / (s.2 ⬝ᵥ A s.2)
  let r := s.1 - a • A s.2
  let B := r ⬝ᵥ A s.2 / (s.2 ⬝ᵥ A s.2)
  (r, -r + B • s.2)

/-- Residual and direction after `k` steps. -/
def seq (A : (Fin n → K) → Fin n → K) (f : Fin n → K) : Nat → (Fin n → K) × (Fin n → K)
  | 0 => (f, -f)
  | k + 1 => step A (seq A f k)

variable {A : (Fin n → K) → Fin n → K} {f : Fin n → K}

/-- Residuals are orthogonal to each other and to earlier directions, directions are conjugate, as
long as the residuals do not vanish. -/
theorem seq_orthogonal (hA : Spd A) (k : Nat) (hr : ∀ j ≤ k, (seq A f j).1 ≠ 0) :
    (∀ j < k, (seq A f k).1 ⬝ᵥ (seq A f j).2 = 0) ∧
    (∀ j < k, (seq A f k).1 ⬝ᵥ (seq A f j).1 = 0) ∧
    (∀ j < k, (seq A f k).2 ⬝ᵥ A (seq A f j).2 = 0) ∧
    (seq A f k).1 ⬝ᵥ (seq A f k).2 = -((seq A f k).1 ⬝ᵥ (seq A f k).1) ∧
    (seq A f k).2 ⬝ᵥ A (seq A f k).2 ≠ 0 := by
  induction k using Nat.strong_induction_on with
  | _ k ih =>
    have fin : (seq A f k).1 ⬝ᵥ (seq A f k).2 = -((seq A f k).1 ⬝ᵥ (seq A f k).1) →
        (seq A f k).2 ⬝ᵥ A (seq A f k).2 ≠ 0 := by
      intro h hz
      rw [hA.pos _ hz, dotProduct_zero] at h
      exact hr k (le_refl _) (dot_self_eq_zero (neg_eq_zero.1 h.symm))
    cases k with
    | zero =>
      refine ⟨fun j hj => absurd hj (by omega), fun j hj => absurd hj (by omega),
        fun j hj => absurd hj (by omega), ?_, fin ?_⟩ <;> simp [seq]
    | succ k =>
      have IH := fun j (hj : j < k + 1) => ih j hj fun i hi => hr i (by omega)
      obtain ⟨h1, h2, h3, h4, h5⟩ := IH k (by omega)
      set r := fun j => (seq A f j).1 with hrd
      set w := fun j => (seq A f j).2 with hwd
      set a := fun j => r j ⬝ᵥ w j / (w j ⬝ᵥ A (w j)) with had
      have er : ∀ j, r (j + 1) = r j - a j • A (w j) := fun j => rfl
      have ew : ∀ j, w (j + 1) = -r (j + 1) + (r (j + 1) ⬝ᵥ A (w j) / (w j ⬝ᵥ A (w j))) • w j :=
        fun j => rfl
      -- the new residual and the directions
      have n1 : ∀ j < k + 1, r (k + 1) ⬝ᵥ w j = 0 := by
        intro j hj
        rw [er, sub_dotProduct, smul_dotProduct, smul_eq_mul, ← hA.symm]
        rcases Nat.lt_succ_iff_lt_or_eq.1 hj with h | h
        · rw [h1 j h, h3 j h]; ring
        · subst h
          show r j ⬝ᵥ w j - r j ⬝ᵥ w j / (w j ⬝ᵥ A (w j)) * (w j ⬝ᵥ A (w j)) = 0
          rw [div_mul_cancel₀ _ h5, sub_self]
      -- the new residual and the residuals
      have n2 : ∀ j < k + 1, r (k + 1) ⬝ᵥ r j = 0 := by
        intro j hj
        cases j with
        | zero =>
          have : r 0 = -w 0 := by simp [hrd, hwd, seq]
          rw [this, dotProduct_neg, n1 0 (by omega), neg_zero]
        | succ j =>
          have : r (j + 1) = -w (j + 1) + (r (j + 1) ⬝ᵥ A (w j) / (w j ⬝ᵥ A (w j))) • w j := by
            rw [ew j]; simp
          rw [this, dotProduct_add, dotProduct_neg, dotProduct_smul, n1 _ hj, n1 j (by omega)]
          simp
      have n3 : ∀ j < k + 1, w (k + 1) ⬝ᵥ A (w j) = 0 := by
        intro j hj
        rw [ew, add_dotProduct, neg_dotProduct, smul_dotProduct, smul_eq_mul]
        rcases Nat.lt_succ_iff_lt_or_eq.1 hj with h | h
        · have h3' : w k ⬝ᵥ A (w j) = 0 := h3 j h
          rw [h3', mul_zero, add_zero, neg_eq_zero]
          obtain ⟨_, _, _, g4, g5⟩ := IH j (by omega)
          have haj : a j ≠ 0 := by
            refine div_ne_zero ?_ g5
            show r j ⬝ᵥ w j ≠ 0
            rw [show r j ⬝ᵥ w j = -(r j ⬝ᵥ r j) from g4]
            exact neg_ne_zero.2 fun hz => hr j (by omega) (dot_self_eq_zero hz)
          have e : a j • A (w j) = r j - r (j + 1) := by rw [er]; simp
          have e2 : a j * (r (k + 1) ⬝ᵥ A (w j)) = 0 := by
            rw [← smul_eq_mul, ← dotProduct_smul, e, dotProduct_sub, n2 j (by omega),
              n2 (j + 1) (by omega), sub_zero]
          exact (mul_eq_zero.1 e2).resolve_left haj
        · subst h
          rw [div_mul_cancel₀ _ h5]; ring
      have n4 : r (k + 1) ⬝ᵥ w (k + 1) = -(r (k + 1) ⬝ᵥ r (k + 1)) := by
        rw [ew, dotProduct_add, dotProduct_neg, dotProduct_smul, n1 k (by omega)]
        simp
      exact ⟨n1, n2, n3, n4, fin n4⟩

/-- The residual vanishes after at most `n` steps. -/
theorem seq_ends (hA : Spd A) : ∃ k ≤ n, (seq A f k).1 = 0 := by
  by_contra hc
  push Not at hc
  have := orthogonal_le (n + 1) (fun i : Fin (n + 1) => (seq A f i).1)
    (fun i => hc i (by omega)) fun i j hij => by
      rw [dotProduct_comm]
      exact (seq_orthogonal hA j (fun l hl => hc l (by omega))).2.1 i hij
  omega

/-- The loop started after `k` steps, when no earlier residual vanishes: it returns an approximate
solution.  `x` solves the system up to the residual. -/
theorem cgLoop_spec (hA : Spd A) (tol : K) (htol : 0 < tol) : ∀ (fuel k : Nat) (x : Fin n → K),
    n ≤ k + fuel → (∀ j ≤ k, (seq A f j).1 ≠ 0) → A x = f - (seq A f k.succ).1 →
    ∃ q, cgLoop A tol fuel ⟨(seq A f k).1, (seq A f k).2, A (seq A f k).2,
        (seq A f k).1 ⬝ᵥ (seq A f k).2 / ((seq A f k).2 ⬝ᵥ A (seq A f k).2), x⟩ = some q ∧
      (f - A q) ⬝ᵥ (f - A q) < tol
  | 0, k, x, hf, hr, hx => by
    obtain ⟨j, hj, h0⟩ := seq_ends (f := f) hA
    exact absurd h0 (hr j (by omega))
  | fuel + 1, k, x, hf, hr, hx => by
    rw [cgLoop]
    dsimp only
    have e1 : (seq A f k).1 - ((seq A f k).1 ⬝ᵥ (seq A f k).2 / ((seq A f k).2 ⬝ᵥ A (seq A f k).2))
        • A (seq A f k).2 = (seq A f (k + 1)).1 := rfl
    rw [e1]
    split
    · rename_i hlt
      exact ⟨x, rfl, by rw [hx, sub_sub_cancel]; exact hlt⟩
    · rename_i hge
      have hr' : ∀ j ≤ k + 1, (seq A f j).1 ≠ 0 := by
        intro j hj
        rcases Nat.lt_or_ge j (k + 1) with h | h
        · exact hr j (by omega)
        · have : j = k + 1 := by omega
          subst this
          intro hz
          rw [hz, dotProduct_zero] at hge
          exact hge htol
      obtain ⟨_, _, _, _, h5⟩ := seq_orthogonal hA k hr
      obtain ⟨_, _, _, _, h5'⟩ := seq_orthogonal hA (k + 1) hr'
      rw [if_neg h5]
      have e2 : -(seq A f (k + 1)).1 + ((seq A f (k + 1)).1 ⬝ᵥ A (seq A f k).2
          / ((seq A f k).2 ⬝ᵥ A (seq A f k).2)) • (seq A f k).2 = (seq A f (k + 1)).2 := rfl
      rw [e2, if_neg h5']
      refine cgLoop_spec hA tol htol fuel (k + 1) _ (by omega) hr' ?_
      rw [hA.add, hA.smul, hx]
      show _ = f - ((seq A f (k + 1)).1 - _ • A (seq A f (k + 1)).2)
      rw [sub_sub_eq_add_sub, add_sub_right_comm]

/-- `_ringCGM` returns a vector that solves the system up to the bound, provided there are at least
as many iterations as unknowns and the right-hand side is not 0. -/
theorem cgmWith_spec (hA : Spd A) (tol : K) (htol : 0 < tol) (iters : Nat) (hi : n ≤ iters)
    (hf : f ≠ 0) : ∃ q, cgmWith A tol iters f = some q ∧ (f - A q) ⬝ᵥ (f - A q) < tol := by
  have h0 : A 0 = 0 := by
    have := hA.smul 0 0
    simpa using this
  unfold cgmWith
  dsimp only
  rw [h0, sub_zero]
  obtain ⟨_, _, _, _, h5⟩ := seq_orthogonal (f := f) hA 0 fun j hj => by
    rw [show j = 0 by omega]; exact hf
  rw [if_neg (show ¬ (-f) ⬝ᵥ A (-f) = 0 from h5)]
  refine cgLoop_spec (f := f) hA tol htol iters 0 _ (by omega) (fun j hj => by
    rw [show j = 0 by omega]; exact hf) ?_
  rw [hA.smul]
  show _ = f - (f - _ • A (-f))
  rw [sub_sub_cancel]
  rfl

/-- With a vanishing right-hand side the first division is 0/0. -/
theorem cgmWith_zero (hA : Spd A) (tol : K) (iters : Nat) : cgmWith A tol iters 0 = none := by
  have h0 : A 0 = 0 := by
    have := hA.smul 0 0
    simpa using this
  unfold cgmWith
  simp [h0]

end Tomopy.Ti
