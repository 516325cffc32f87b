import Verif.Iter.Ospml
import Verif.Iter.ConvMlem
import Mathlib.Analysis.Calculus.FDeriv.Symmetric
import Mathlib.Analysis.Calculus.LocalExtr.Basic
import Mathlib.Analysis.SpecialFunctions.Log.Deriv
import Mathlib.Analysis.Calculus.Deriv.MeanValue

/-!
# The penalised methods and the penalised likelihood (C141)
-/

set_option linter.unusedSectionVars false

namespace Tomopy.Iter

open Filter Topology

/-! ## Specification -/

/-- The inverse distance of the centres of the neighbouring pixels `j` and `k` (flat indices of a
grid with rows of `ngy` pixels); 0 for pixels that are equal or do not touch. -/
noncomputable def adjW (ngy j k : Nat) : ℝ :=
  if |((k / ngy : Nat) : Int) - (j / ngy : Nat)| ≤ 1 ∧
      |((k % ngy : Nat) : Int) - (j % ngy : Nat)| ≤ 1 ∧ j ≠ k then
    (if k / ngy = j / ngy ∨ k % ngy = j % ngy then 1 else 1 / √2) else 0

/-- The weight of neighbour `k` of pixel `j`: the weights of the neighbours of `j` sum to 1. -/
noncomputable def gridW (ngx ngy j k : Nat) : ℝ :=
  adjW ngy j k / ∑ i ∈ Finset.range (ngx * ngy), adjW ngy j i

/-- The weights are symmetric. -/
def SymGrid (ngx ngy : Nat) : Prop :=
  ∀ j < ngx * ngy, ∀ k < ngx * ngy, gridW ngx ngy j k = gridW ngx ngy k j

/-- The log-likelihood minus a penalty for the differences of neighbouring pixels. -/
noncomputable def penLik (phi : ℝ → ℝ) (beta : ℝ) (D : Dims) (ngx ngy : Nat) (g : Geom ℝ)
    (data : Mem ℝ) (s : Nat) (r : Mem ℝ) : ℝ :=
  logLik D g data s r - beta / 2 * ∑ j ∈ Finset.range D.N, ∑ k ∈ Finset.range D.N,
    gridW ngx ngy j k * phi (r (j + s * D.N) - r (k + s * D.N))

/-- The penalty of `pml_hybrid`: quadratic for small differences, linear for large ones. -/
noncomputable def phiHybrid (delta t : ℝ) : ℝ :=
  2 * delta * (|t| - delta * Real.log (1 + |t| / delta))

/-! ## The surrogate -/

section Abstract

variable {ι : Type*}

/-- Concavity of the logarithm along every ray. -/
theorem em_concave (Q : Finset ι) (N : Nat) (a : ι → Nat → ℝ) (b : ι → ℝ) (x y : Nat → ℝ)
    (ha : ∀ q ∈ Q, ∀ n < N, 0 ≤ a q n) (hb : ∀ q ∈ Q, 0 < b q)
    (hx : ∀ n < N, 0 < x n) (hy : ∀ n < N, 0 < y n)
    (hAx : ∀ q ∈ Q, 0 < ∑ n ∈ Finset.range N, x n * a q n)
    (hAy : ∀ q ∈ Q, 0 < ∑ n ∈ Finset.range N, y n * a q n) :
    ∑ n ∈ Finset.range N, ((x n * ∑ q ∈ Q, b q / (∑ n ∈ Finset.range N, x n * a q n) * a q n) *
        Real.log (y n / x n) - (∑ q ∈ Q, a q n) * (y n - x n)) ≤
    (∑ q ∈ Q, (b q * Real.log (∑ n ∈ Finset.range N, y n * a q n) -
        ∑ n ∈ Finset.range N, y n * a q n)) -
      ∑ q ∈ Q, (b q * Real.log (∑ n ∈ Finset.range N, x n * a q n) -
        ∑ n ∈ Finset.range N, x n * a q n) := by
  obtain ⟨A, hA⟩ : ∃ A : ι → (Nat → ℝ) → ℝ, ∀ q x, A q x = ∑ n ∈ Finset.range N, x n * a q n :=
    ⟨_, fun _ _ => rfl⟩
  simp only [← hA] at hAx hAy ⊢
  have h1 : ∀ q ∈ Q, ∑ n ∈ Finset.range N, x n * (b q / A q x * a q n) * Real.log (y n / x n) ≤
      b q * Real.log (A q y) - b q * Real.log (A q x) := by
    intro q hq
    have px := hAx q hq
    have py := hAy q hq
    have h2 : ∀ n ∈ Finset.range N, x n * (b q / A q x * a q n) * Real.log (y n / x n) ≤
        b q / A q x * ((x n * a q n) * (Real.log (A q y) - Real.log (A q x) - 1) +
          (y n * a q n) * (A q x / A q y)) := by
      intro n hn
      have hn := Finset.mem_range.mp hn
      have hxn := hx n hn
      have hyn := hy n hn
      have hl := Real.log_le_sub_one_of_pos (show 0 < y n / x n * (A q x / A q y) by positivity)
      rw [Real.log_mul (by positivity) (by positivity), Real.log_div px.ne' py.ne'] at hl
      have hw : 0 ≤ b q / A q x * (x n * a q n) :=
        mul_nonneg (div_pos (hb q hq) px).le (mul_nonneg hxn.le (ha q hq n hn))
      have h3 := mul_le_mul_of_nonneg_left hl hw
      have e : x n * (y n / x n) = y n := by field_simp
      have e3 : b q / A q x * (x n * a q n) * (y n / x n * (A q x / A q y) - 1) =
          b q / A q x * ((x n * (y n / x n)) * a q n * (A q x / A q y)) -
          b q / A q x * (x n * a q n) := by ring
      rw [e3, e] at h3
      linarith
    refine (Finset.sum_le_sum h2).trans (le_of_eq ?_)
    rw [← Finset.mul_sum, Finset.sum_add_distrib, ← Finset.sum_mul, ← Finset.sum_mul, ← hA, ← hA]
    field_simp
    ring
  have h4 := Finset.sum_le_sum h1
  rw [Finset.sum_comm] at h4
  have h5 : ∑ n ∈ Finset.range N, ∑ q ∈ Q, x n * (b q / A q x * a q n) * Real.log (y n / x n) =
      ∑ n ∈ Finset.range N, (x n * ∑ q ∈ Q, b q / A q x * a q n) * Real.log (y n / x n) := by
    refine Finset.sum_congr rfl fun n _ => ?_
    rw [← Finset.sum_mul, ← Finset.mul_sum]
  rw [h5] at h4
  have h6 : ∀ w : Nat → ℝ, ∑ n ∈ Finset.range N, (∑ q ∈ Q, a q n) * w n = ∑ q ∈ Q, A q w := by
    intro w
    simp only [hA, Finset.sum_mul]
    rw [Finset.sum_comm]
    exact Finset.sum_congr rfl fun q _ => Finset.sum_congr rfl fun n _ => mul_comm _ _
  have h7 : ∑ n ∈ Finset.range N, (∑ q ∈ Q, a q n) * (y n - x n) =
      ∑ q ∈ Q, A q y - ∑ q ∈ Q, A q x := by
    rw [← h6 y, ← h6 x, ← Finset.sum_sub_distrib]
    exact Finset.sum_congr rfl fun n _ => by ring
  rw [Finset.sum_sub_distrib, h7]
  simp only [Finset.sum_sub_distrib] at h4 ⊢
  linarith

/-- The penalty of the new image is at most its separable surrogate. -/
theorem depierro (N : Nat) (w : Nat → Nat → ℝ) (hw : ∀ n < N, ∀ k < N, 0 ≤ w n k)
    (hsym : ∀ n < N, ∀ k < N, w n k = w k n) (x y : Nat → ℝ) :
    ∑ n ∈ Finset.range N, ∑ k ∈ Finset.range N, w n k * (y n - y k) ^ 2 ≤
      ∑ n ∈ Finset.range N, ∑ k ∈ Finset.range N, w n k * (2 * y n - x n - x k) ^ 2 := by
  have h1 : ∀ n ∈ Finset.range N, ∀ k ∈ Finset.range N, w n k * (y n - y k) ^ 2 ≤
      1 / 2 * (w n k * (2 * y n - x n - x k) ^ 2) + 1 / 2 * (w k n * (2 * y k - x k - x n) ^ 2) := by
    intro n hn k hk
    have hn := Finset.mem_range.mp hn
    have hk := Finset.mem_range.mp hk
    rw [hsym k hk n hn]
    have := mul_nonneg (hw n hn k hk) (sq_nonneg (y n + y k - x n - x k))
    nlinarith
  refine (Finset.sum_le_sum fun n hn => Finset.sum_le_sum (h1 n hn)).trans (le_of_eq ?_)
  simp only [Finset.sum_add_distrib]
  rw [Finset.sum_comm (f := fun n k => 1 / 2 * (w k n * (2 * y k - x k - x n) ^ 2))]
  rw [← Finset.sum_add_distrib]
  refine Finset.sum_congr rfl fun n _ => ?_
  rw [← Finset.sum_add_distrib]
  exact Finset.sum_congr rfl fun k _ => by ring

/-- One step on a likelihood with a quadratic penalty with symmetric weights. -/
theorem pml_gain (Q : Finset ι) (N : Nat) (a : ι → Nat → ℝ) (b : ι → ℝ) (x y : Nat → ℝ)
    (w : Nat → Nat → ℝ)
    (ha : ∀ q ∈ Q, ∀ n < N, 0 ≤ a q n) (hb : ∀ q ∈ Q, 0 < b q)
    (hx : ∀ n < N, 0 < x n) (hy : ∀ n < N, 0 < y n)
    (hAx : ∀ q ∈ Q, 0 < ∑ n ∈ Finset.range N, x n * a q n)
    (hAy : ∀ q ∈ Q, 0 < ∑ n ∈ Finset.range N, y n * a q n)
    (hw : ∀ n < N, ∀ k < N, 0 ≤ w n k) (hsym : ∀ n < N, ∀ k < N, w n k = w k n)
    (hstep : ∀ n < N, y n * (∑ q ∈ Q, a q n +
        ∑ k ∈ Finset.range N, w n k * (2 * y n - x n - x k)) =
      x n * ∑ q ∈ Q, b q / (∑ n ∈ Finset.range N, x n * a q n) * a q n) :
    ∑ n ∈ Finset.range N, (∑ k ∈ Finset.range N, w n k) * (y n - x n) ^ 2 ≤
    ((∑ q ∈ Q, (b q * Real.log (∑ n ∈ Finset.range N, y n * a q n) -
        ∑ n ∈ Finset.range N, y n * a q n)) -
      1 / 4 * ∑ n ∈ Finset.range N, ∑ k ∈ Finset.range N, w n k * (y n - y k) ^ 2) -
    ((∑ q ∈ Q, (b q * Real.log (∑ n ∈ Finset.range N, x n * a q n) -
        ∑ n ∈ Finset.range N, x n * a q n)) -
      1 / 4 * ∑ n ∈ Finset.range N, ∑ k ∈ Finset.range N, w n k * (x n - x k) ^ 2) := by
  have h1 := em_concave Q N a b x y ha hb hx hy hAx hAy
  have h2 := depierro N w hw hsym x y
  have h3 : ∀ n ∈ Finset.range N, (∑ k ∈ Finset.range N, w n k) * (y n - x n) ^ 2 +
      1 / 4 * (∑ k ∈ Finset.range N, w n k * (2 * y n - x n - x k) ^ 2) -
      1 / 4 * (∑ k ∈ Finset.range N, w n k * (x n - x k) ^ 2) ≤
      (x n * ∑ q ∈ Q, b q / (∑ n ∈ Finset.range N, x n * a q n) * a q n) *
        Real.log (y n / x n) - (∑ q ∈ Q, a q n) * (y n - x n) := by
    intro n hn
    have hn := Finset.mem_range.mp hn
    have hxn := hx n hn
    have hyn := hy n hn
    have he : 0 ≤ x n * ∑ q ∈ Q, b q / (∑ n ∈ Finset.range N, x n * a q n) * a q n :=
      mul_nonneg hxn.le (Finset.sum_nonneg fun q hq =>
        mul_nonneg (div_pos (hb q hq) (hAx q hq)).le (ha q hq n hn))
    have hs := hstep n hn
    have hl := Real.one_sub_inv_le_log_of_pos (div_pos hyn hxn)
    generalize hE : x n * ∑ q ∈ Q, b q / (∑ n ∈ Finset.range N, x n * a q n) * a q n = E at *
    have h4 := mul_le_mul_of_nonneg_left hl he
    have h5 : E * (1 - (y n / x n)⁻¹) =
        (∑ q ∈ Q, a q n + ∑ k ∈ Finset.range N, w n k * (2 * y n - x n - x k)) * (y n - x n) := by
      rw [← hs, inv_div]
      field_simp
    have h6 : (∑ k ∈ Finset.range N, w n k) * (y n - x n) ^ 2 +
      1 / 4 * (∑ k ∈ Finset.range N, w n k * (2 * y n - x n - x k) ^ 2) -
      1 / 4 * (∑ k ∈ Finset.range N, w n k * (x n - x k) ^ 2) =
      (∑ k ∈ Finset.range N, w n k * (2 * y n - x n - x k)) * (y n - x n) := by
      rw [Finset.sum_mul, Finset.sum_mul, Finset.mul_sum, Finset.mul_sum, ← Finset.sum_add_distrib,
        ← Finset.sum_sub_distrib]
      exact Finset.sum_congr rfl fun k _ => by ring
    rw [h6]
    linarith
  have h7 := Finset.sum_le_sum h3
  rw [Finset.sum_sub_distrib, Finset.sum_add_distrib, ← Finset.mul_sum, ← Finset.mul_sum] at h7
  linarith

/-- An image that the step does not change is best, if the penalty is convex. -/
theorem pml_fixed_max (Q : Finset ι) (N : Nat) (a : ι → Nat → ℝ) (b : ι → ℝ) (x y : Nat → ℝ)
    (w : Nat → Nat → ℝ) (hb : ∀ q ∈ Q, 0 < b q) (hx : ∀ n < N, 0 < x n)
    (hAx : ∀ q ∈ Q, 0 < ∑ n ∈ Finset.range N, x n * a q n)
    (hAy : ∀ q ∈ Q, 0 < ∑ n ∈ Finset.range N, y n * a q n)
    (hsym : ∀ n < N, ∀ k < N, w n k = w k n)
    (hstep : ∀ n < N, x n * (∑ q ∈ Q, a q n +
        ∑ k ∈ Finset.range N, w n k * (x n - x k)) =
      x n * ∑ q ∈ Q, b q / (∑ n ∈ Finset.range N, x n * a q n) * a q n) :
    ∑ q ∈ Q, (b q * Real.log (∑ n ∈ Finset.range N, y n * a q n) -
        ∑ n ∈ Finset.range N, y n * a q n) -
      1 / 2 * (∑ n ∈ Finset.range N, ∑ k ∈ Finset.range N,
        w n k * (x n - x k) * ((y n - y k) - (x n - x k))) ≤
      ∑ q ∈ Q, (b q * Real.log (∑ n ∈ Finset.range N, x n * a q n) -
        ∑ n ∈ Finset.range N, x n * a q n) := by
  obtain ⟨A, hA⟩ : ∃ A : ι → (Nat → ℝ) → ℝ, ∀ q x, A q x = ∑ n ∈ Finset.range N, x n * a q n :=
    ⟨_, fun _ _ => rfl⟩
  simp only [← hA] at hAx hAy hstep ⊢
  have h1 : ∀ q ∈ Q, b q * Real.log (A q y) - A q y ≤
      b q * Real.log (A q x) - A q x + (b q / A q x - 1) * (A q y - A q x) := by
    intro q hq
    have px := hAx q hq
    have py := hAy q hq
    have hl := Real.log_le_sub_one_of_pos (div_pos py px)
    rw [Real.log_div py.ne' px.ne'] at hl
    have h2 := mul_le_mul_of_nonneg_left hl (hb q hq).le
    have e : (b q / A q x - 1) * (A q y - A q x) = b q * (A q y / A q x - 1) - A q y + A q x := by
      field_simp
      ring
    rw [e]
    linarith
  have h2 := Finset.sum_le_sum h1
  rw [Finset.sum_add_distrib] at h2
  have h3 : ∀ q ∈ Q, (b q / A q x - 1) * (A q y - A q x) =
      ∑ n ∈ Finset.range N, (y n - x n) * (b q / A q x * a q n - a q n) := by
    intro q _
    rw [hA q y, hA q x, ← Finset.sum_sub_distrib, Finset.mul_sum]
    rw [← hA q x]
    exact Finset.sum_congr rfl fun n _ => by ring
  have h4 : ∑ q ∈ Q, (b q / A q x - 1) * (A q y - A q x) =
      ∑ n ∈ Finset.range N, ∑ k ∈ Finset.range N, w n k * (x n - x k) * (y n - x n) := by
    rw [Finset.sum_congr rfl h3, Finset.sum_comm]
    refine Finset.sum_congr rfl fun n hn => ?_
    have hn := Finset.mem_range.mp hn
    have h4 := mul_left_cancel₀ (hx n hn).ne' (hstep n hn)
    rw [← Finset.mul_sum, Finset.sum_sub_distrib, ← h4, ← Finset.sum_mul]
    ring
  have h5 : 1 / 2 * (∑ n ∈ Finset.range N, ∑ k ∈ Finset.range N,
        w n k * (x n - x k) * ((y n - y k) - (x n - x k))) =
      ∑ n ∈ Finset.range N, ∑ k ∈ Finset.range N, w n k * (x n - x k) * (y n - x n) := by
    have e1 : ∑ n ∈ Finset.range N, ∑ k ∈ Finset.range N,
        w n k * (x n - x k) * ((y n - y k) - (x n - x k)) =
        ∑ n ∈ Finset.range N, ∑ k ∈ Finset.range N, w n k * (x n - x k) * (y n - x n) +
        ∑ n ∈ Finset.range N, ∑ k ∈ Finset.range N, w k n * (x k - x n) * (y k - x k) := by
      rw [← Finset.sum_add_distrib]
      refine Finset.sum_congr rfl fun n hn => ?_
      rw [← Finset.sum_add_distrib]
      refine Finset.sum_congr rfl fun k hk => ?_
      rw [hsym k (Finset.mem_range.mp hk) n (Finset.mem_range.mp hn)]
      ring
    rw [e1, Finset.sum_comm (f := fun n k => w k n * (x k - x n) * (y k - x k))]
    ring
  rw [h5]
  linarith

end Abstract

/-! ## The two penalties -/

/-- The pairs of potential and weight used by the code. -/
structure Potential (phi gv : ℝ → ℝ) : Prop where
  even : ∀ t, gv (-t) = gv t
  pos : ∀ t, 0 < gv t
  below : ∀ t u, phi t - phi u ≤ gv u * (t ^ 2 - u ^ 2)
  tangent : ∀ t u, 2 * (gv u * u) * (t - u) ≤ phi t - phi u
  nonneg : ∀ t, 0 ≤ phi t

theorem potential_quad : Potential (fun t => t ^ 2) fun _ => 1 where
  even _ := rfl
  pos _ := one_pos
  below t u := by simp
  tangent t u := by nlinarith [sq_nonneg (t - u)]
  nonneg t := sq_nonneg t

theorem hybrid_gap {a b : ℝ} (ha : 0 ≤ a) (hb : 0 ≤ b) :
    a - Real.log (1 + a) - (b - Real.log (1 + b)) ≤ (a ^ 2 - b ^ 2) / (2 * (1 + b)) := by
  have hd : ∀ c : ℝ, 0 ≤ c → HasDerivAt
      (fun c => c ^ 2 / (2 * (1 + b)) - c + Real.log (1 + c)) (c / (1 + b) - c / (1 + c)) c := by
    intro c hc
    have h1 : HasDerivAt (fun c : ℝ => c ^ 2 / (2 * (1 + b))) (2 * c / (2 * (1 + b))) c := by
      have := (hasDerivAt_pow 2 c).div_const (2 * (1 + b))
      simpa using this
    have h2 : HasDerivAt (fun c : ℝ => Real.log (1 + c)) (1 / (1 + c)) c := by
      have := ((hasDerivAt_id c).const_add 1).log (by simp; linarith)
      simpa using this
    have h3 : HasDerivAt (fun c => c ^ 2 / (2 * (1 + b)) - c + Real.log (1 + c))
        (2 * c / (2 * (1 + b)) - 1 + 1 / (1 + c)) c := (h1.sub (hasDerivAt_id c)).add h2
    convert h3 using 1
    have : 1 + c ≠ 0 := by linarith
    field_simp
    ring
  have hcont : ContinuousOn (fun c => c ^ 2 / (2 * (1 + b)) - c + Real.log (1 + c)) (Set.Ici 0) :=
    fun c hc => (hd c hc).continuousAt.continuousWithinAt
  have key : b ^ 2 / (2 * (1 + b)) - b + Real.log (1 + b) ≤
      a ^ 2 / (2 * (1 + b)) - a + Real.log (1 + a) := by
    rcases le_total b a with h | h
    · have hm : MonotoneOn (fun c => c ^ 2 / (2 * (1 + b)) - c + Real.log (1 + c)) (Set.Ici b) := by
        refine monotoneOn_of_deriv_nonneg (convex_Ici b)
          (hcont.mono (Set.Ici_subset_Ici.mpr hb)) ?_ ?_
        · intro c hc
          rw [interior_Ici, Set.mem_Ioi] at hc
          exact (hd c (by linarith)).differentiableAt.differentiableWithinAt
        · intro c hc
          rw [interior_Ici, Set.mem_Ioi] at hc
          rw [(hd c (by linarith)).deriv, sub_nonneg]
          exact div_le_div_of_nonneg_left (by linarith) (by linarith) (by linarith)
      exact hm (Set.mem_Ici.mpr le_rfl) (Set.mem_Ici.mpr h) h
    · have hm : AntitoneOn (fun c => c ^ 2 / (2 * (1 + b)) - c + Real.log (1 + c))
          (Set.Icc 0 b) := by
        refine antitoneOn_of_deriv_nonpos (convex_Icc 0 b)
          (hcont.mono Set.Icc_subset_Ici_self) ?_ ?_
        · intro c hc
          rw [interior_Icc] at hc
          exact (hd c hc.1.le).differentiableAt.differentiableWithinAt
        · intro c hc
          rw [interior_Icc] at hc
          rw [(hd c hc.1.le).deriv, sub_nonpos]
          exact div_le_div_of_nonneg_left hc.1.le (by linarith [hc.1]) (by linarith [hc.2])
      exact hm (Set.mem_Icc.mpr ⟨ha, h⟩) (Set.mem_Icc.mpr ⟨hb, le_rfl⟩) h
  rw [sub_div]
  linarith

theorem hybrid_tangent {a b c : ℝ} (ha : 0 ≤ a) (hb : 0 ≤ b) (hc : c ≤ a * b) :
    (c - b ^ 2) / (1 + b) ≤ a - Real.log (1 + a) - (b - Real.log (1 + b)) := by
  have hl := Real.log_le_sub_one_of_pos (show 0 < (1 + a) / (1 + b) by positivity)
  rw [Real.log_div (by positivity) (by positivity)] at hl
  have h1 : (c - b ^ 2) / (1 + b) ≤ (a * b - b ^ 2) / (1 + b) :=
    div_le_div_of_nonneg_right (by linarith) (by positivity)
  have h2 : (a * b - b ^ 2) / (1 + b) = (a - b) - ((1 + a) / (1 + b) - 1) := by
    field_simp
    ring
  linarith

theorem potential_hybrid {delta : ℝ} (hd : 0 < delta) :
    Potential (phiHybrid delta) fun t => 1 / (1 + |t / delta|) where
  even t := by rw [neg_div, abs_neg]
  pos t := by positivity
  below t u := by
    have h := hybrid_gap (div_nonneg (abs_nonneg t) hd.le) (div_nonneg (abs_nonneg u) hd.le)
    have h2 := mul_le_mul_of_nonneg_left h (show 0 ≤ 2 * delta ^ 2 by positivity)
    unfold phiHybrid
    rw [abs_div, abs_of_pos hd]
    have hu : 0 < 1 + |u| / delta := by positivity
    have e1 : 2 * delta ^ 2 * (((|t| / delta) ^ 2 - (|u| / delta) ^ 2) / (2 * (1 + |u| / delta))) =
        1 / (1 + |u| / delta) * (t ^ 2 - u ^ 2) := by
      rw [← sq_abs t, ← sq_abs u]
      field_simp
    have e2 : 2 * delta ^ 2 * (|t| / delta - Real.log (1 + |t| / delta) -
        (|u| / delta - Real.log (1 + |u| / delta))) =
        2 * delta * (|t| - delta * Real.log (1 + |t| / delta)) -
        2 * delta * (|u| - delta * Real.log (1 + |u| / delta)) := by
      field_simp
    linarith
  tangent t u := by
    have hc : t / delta * (u / delta) ≤ |t| / delta * (|u| / delta) := by
      refine (le_abs_self _).trans (le_of_eq ?_)
      rw [abs_mul, abs_div, abs_div, abs_of_pos hd]
    have h := hybrid_tangent (div_nonneg (abs_nonneg t) hd.le) (div_nonneg (abs_nonneg u) hd.le) hc
    have h2 := mul_le_mul_of_nonneg_left h (show 0 ≤ 2 * delta ^ 2 by positivity)
    unfold phiHybrid
    simp only [abs_div, abs_of_pos hd]
    have hu : 0 < 1 + |u| / delta := by positivity
    have e1 : 2 * delta ^ 2 * ((t / delta * (u / delta) - (|u| / delta) ^ 2) / (1 + |u| / delta)) =
        2 * (1 / (1 + |u| / delta) * u) * (t - u) := by
      have : (|u| / delta) ^ 2 = (u / delta) ^ 2 := by rw [div_pow, div_pow, sq_abs]
      rw [this]
      field_simp
    have e2 : 2 * delta ^ 2 * (|t| / delta - Real.log (1 + |t| / delta) -
        (|u| / delta - Real.log (1 + |u| / delta))) =
        2 * delta * (|t| - delta * Real.log (1 + |t| / delta)) -
        2 * delta * (|u| - delta * Real.log (1 + |u| / delta)) := by
      field_simp
    linarith
  nonneg t := by
    unfold phiHybrid
    have h := Real.log_le_sub_one_of_pos (show 0 < 1 + |t| / delta by positivity)
    have h2 := mul_le_mul_of_nonneg_left h hd.le
    have e : delta * (1 + |t| / delta - 1) = |t| := by field_simp; ring
    refine mul_nonneg (by positivity) (by linarith)

/-! ## The weights of the code -/

/-- The flat index of the pixel at offset `o`. -/
def nbIdx (ngy n m : Nat) (o : Int × Int) : Nat := (((n : Int) + o.1) * ngy + (m + o.2)).toNat

theorem nbIdx_eq {ngx ngy n m : Nat} (hn : n < ngx) (hm : m < ngy) {o : Int × Int}
    (ho : o ∈ offs8) (hi : InGrid ngx ngy n m o) :
    ∃ a < ngx, ∃ b < ngy, (a : Int) = n + o.1 ∧ (b : Int) = m + o.2 ∧
      nbIdx ngy n m o = b + a * ngy := by
  have h : 0 ≤ (n : Int) + o.1 ∧ (n : Int) + o.1 < ngx ∧ 0 ≤ (m : Int) + o.2 ∧
      (m : Int) + o.2 < ngy := by
    unfold InGrid at hi
    simp only [offs8, List.mem_cons, List.not_mem_nil, or_false] at ho
    rcases ho with rfl | rfl | rfl | rfl | rfl | rfl | rfl | rfl <;> simp at hi ⊢ <;> omega
  obtain ⟨a, ha⟩ := Int.eq_ofNat_of_zero_le h.1
  obtain ⟨b, hb⟩ := Int.eq_ofNat_of_zero_le h.2.2.1
  refine ⟨a, by have := h.2.1; omega, b, by have := h.2.2.2; omega, ha.symm, hb.symm, ?_⟩
  unfold nbIdx
  rw [ha, hb]
  have : ((a : Int) * (ngy : Int) + (b : Int)) = ((b + a * ngy : Nat) : Int) := by push_cast; ring
  rw [this, Int.toNat_natCast]

theorem pix_div_mod {ngy n m : Nat} (hm : m < ngy) :
    (m + n * ngy) / ngy = n ∧ (m + n * ngy) % ngy = m := by
  constructor
  · rw [Nat.add_mul_div_right _ _ (by omega), Nat.div_eq_of_lt hm, Nat.zero_add]
  · rw [Nat.add_mul_mod_self_right, Nat.mod_eq_of_lt hm]

theorem nbPix_idx {ngx ngy n m : Nat} (hn : n < ngx) (hm : m < ngy) {o : Int × Int}
    (ho : o ∈ offs8) (hi : InGrid ngx ngy n m o) (r : Mem ℝ) (base : Nat) :
    nbPix r ngy base n m o = r (nbIdx ngy n m o + base) := by
  obtain ⟨a, -, b, -, ha, hb, he⟩ := nbIdx_eq hn hm ho hi
  rw [he]
  unfold nbPix
  rw [← ha, ← hb]
  congr 1
  have : ((a : Int) * (ngy : Int) + (b : Int) + (base : Int)) =
      ((b + a * ngy + base : Nat) : Int) := by push_cast; ring
  rw [this, Int.toNat_natCast]

theorem adjW_sum {ngx ngy n m : Nat} (hn : n < ngx) (hm : m < ngy) (f : Nat → ℝ) :
    ∑ k ∈ Finset.range (ngx * ngy), adjW ngy (m + n * ngy) k * f k =
      (offs8.map fun o => rawW ngx ngy n m o * f (nbIdx ngy n m o)).sum := by
  have hnd : offs8.Nodup := by decide
  rw [← List.sum_toFinset _ hnd]
  have h1 : ∀ o ∈ offs8.toFinset, rawW ngx ngy n m o * f (nbIdx ngy n m o) =
      ∑ k ∈ Finset.range (ngx * ngy), if InGrid ngx ngy n m o ∧ k = nbIdx ngy n m o then
        (if o.1 = 0 ∨ o.2 = 0 then 1 else 1 / √2) * f k else 0 := by
    intro o ho
    rw [List.mem_toFinset] at ho
    by_cases hi : InGrid ngx ngy n m o
    · obtain ⟨a, ha, b, hb, -, -, he⟩ := nbIdx_eq hn hm ho hi
      have hlt : nbIdx ngy n m o < ngx * ngy := by
        rw [he]
        have : (a + 1) * ngy ≤ ngx * ngy := Nat.mul_le_mul_right _ ha
        have e3 : (a + 1) * ngy = a * ngy + ngy := by ring
        omega
      simp only [hi, true_and]
      rw [Finset.sum_ite_eq' (Finset.range (ngx * ngy)) (nbIdx ngy n m o),
        if_pos (Finset.mem_range.mpr hlt)]
      unfold rawW
      rw [if_pos hi]
    · simp only [hi, false_and, if_false, Finset.sum_const_zero]
      unfold rawW
      rw [if_neg hi, zero_mul]
  rw [Finset.sum_congr rfl h1, Finset.sum_comm]
  refine Finset.sum_congr rfl fun k hk => ?_
  obtain ⟨n', hn', m', hm', rfl⟩ := exists_pix (Finset.mem_range.mp hk)
  have hiff : ∀ o ∈ offs8.toFinset, (InGrid ngx ngy n m o ∧ m' + n' * ngy = nbIdx ngy n m o) ↔
      ((n' : Int) - n, (m' : Int) - m) = o := by
    intro o ho
    rw [List.mem_toFinset] at ho
    constructor
    · rintro ⟨hi, he⟩
      obtain ⟨a, ha, b, hb, e1, e2, e3⟩ := nbIdx_eq hn hm ho hi
      rw [e3, pix_eq_iff hb hm'] at he
      obtain ⟨rfl, rfl⟩ := he
      refine Prod.ext ?_ ?_ <;> simp only <;> omega
    · rintro rfl
      have hi : InGrid ngx ngy n m ((n' : Int) - n, (m' : Int) - m) := by
        unfold InGrid
        simp only
        omega
      refine ⟨hi, ?_⟩
      obtain ⟨a, ha, b, hb, e1, e2, e3⟩ := nbIdx_eq hn hm ho hi
      simp only at e1 e2
      rw [e3, pix_eq_iff hb hm']
      omega
  have h2 : ∀ o ∈ offs8.toFinset, (if InGrid ngx ngy n m o ∧ m' + n' * ngy = nbIdx ngy n m o then
        (if o.1 = 0 ∨ o.2 = 0 then 1 else 1 / √2) * f (m' + n' * ngy) else 0) =
      if ((n' : Int) - n, (m' : Int) - m) = o then
        (if (n' : Int) - n = 0 ∨ (m' : Int) - m = 0 then 1 else 1 / √2) * f (m' + n' * ngy)
      else 0 := by
    intro o ho
    simp only [hiff o ho]
    by_cases h : ((n' : Int) - n, (m' : Int) - m) = o
    · rw [if_pos h, if_pos h, ← h]
    · rw [if_neg h, if_neg h]
  rw [Finset.sum_congr rfl h2, Finset.sum_ite_eq]
  unfold adjW
  rw [(pix_div_mod hm).1, (pix_div_mod hm).2, (pix_div_mod hm').1, (pix_div_mod hm').2]
  have h3 : ((n' : Int) - n, (m' : Int) - m) ∈ offs8.toFinset ↔
      |(n' : Int) - n| ≤ 1 ∧ |(m' : Int) - m| ≤ 1 ∧ m + n * ngy ≠ m' + n' * ngy := by
    rw [List.mem_toFinset, ne_eq, pix_eq_iff hm' hm, abs_le, abs_le]
    simp only [offs8, List.mem_cons, Prod.mk.injEq, List.not_mem_nil, or_false]
    omega
  have h4 : ((n' : Int) - n = 0 ∨ (m' : Int) - m = 0) ↔ (n' = n ∨ m' = m) := by omega
  simp only [h3, h4]
  split <;> simp

theorem nbMean_grid {ngx ngy n m : Nat} (hn : n < ngx) (hm : m < ngy) (r : Mem ℝ) (base : Nat)
    (f : ℝ → ℝ) :
    nbMean ngx ngy n m (fun o => f (nbPix r ngy base n m o)) =
      ∑ k ∈ Finset.range (ngx * ngy), gridW ngx ngy (m + n * ngy) k * f (r (k + base)) := by
  have h1 : nbMean ngx ngy n m (fun o => f (nbPix r ngy base n m o)) =
      nbMean ngx ngy n m (fun o => f (r (nbIdx ngy n m o + base))) :=
    nbMean_congr fun o ho hi => by rw [nbPix_idx hn hm ho hi]
  rw [h1]
  unfold nbMean gridW
  have h2 := adjW_sum hn hm fun k => f (r (k + base))
  have h3 := adjW_sum hn hm fun _ => 1
  simp only [mul_one] at h3
  rw [← h2, ← h3, Finset.sum_div]
  exact Finset.sum_congr rfl fun k _ => by ring

theorem adjW_nonneg (ngy j k : Nat) : 0 ≤ adjW ngy j k := by
  unfold adjW
  split
  · split <;> positivity
  · exact le_refl _

theorem adjW_symm (ngy j k : Nat) : adjW ngy j k = adjW ngy k j := by
  unfold adjW
  simp only [abs_sub_comm ((k / ngy : Nat) : Int), abs_sub_comm ((k % ngy : Nat) : Int),
    ne_comm (a := j), eq_comm (a := k / ngy), eq_comm (a := k % ngy)]

theorem gridW_nonneg (ngx ngy j k : Nat) : 0 ≤ gridW ngx ngy j k :=
  div_nonneg (adjW_nonneg _ _ _) (Finset.sum_nonneg fun _ _ => adjW_nonneg _ _ _)

theorem gridW_sum {ngx ngy j : Nat} (hx : 2 ≤ ngx) (hj : j < ngx * ngy) :
    ∑ k ∈ Finset.range (ngx * ngy), gridW ngx ngy j k = 1 := by
  obtain ⟨n, hn, m, hm, rfl⟩ := exists_pix hj
  have := nbMean_grid hn hm (fun _ => 0) 0 fun _ => 1
  rw [nbMean_const hx hn] at this
  rw [this]
  simp

/-- The weights around a pixel with given numbers of straight and diagonal neighbours. -/
theorem norm_eq {ngx ngy n m : Nat} (hn : n < ngx) (hm : m < ngy) :
    ∑ k ∈ Finset.range (ngx * ngy), adjW ngy (m + n * ngy) k =
      (offs8.map (rawW ngx ngy n m)).sum := by
  have h := adjW_sum hn hm fun _ => 1
  simpa using h

/-- The weights of the code are symmetric only on the grid of 2 x 2 pixels. -/
theorem symGrid_iff {ngx ngy : Nat} (hx : 2 ≤ ngx) (hy : 2 ≤ ngy) :
    SymGrid ngx ngy ↔ ngx = 2 ∧ ngy = 2 := by
  have hs : 0 < √(2 : ℝ) := Real.sqrt_pos.mpr (by norm_num)
  constructor
  · intro h
    have hlt : ∀ {a b : Nat}, a < ngx → b < ngy → b + a * ngy < ngx * ngy := by
      intro a b ha hb
      have : (a + 1) * ngy ≤ ngx * ngy := Nat.mul_le_mul_right _ ha
      have e3 : (a + 1) * ngy = a * ngy + ngy := by ring
      omega
    have hcorner : ∑ k ∈ Finset.range (ngx * ngy), adjW ngy (0 + 0 * ngy) k = 2 + 1 / √2 := by
      rw [norm_eq (by omega) (by omega)]
      simp [offs8, rawW, InGrid, show 1 < ngx by omega, show 1 < ngy by omega]
      ring
    by_contra hne
    rcases (show 3 ≤ ngx ∨ 3 ≤ ngy by omega) with h3 | h3
    · have hedge : ∑ k ∈ Finset.range (ngx * ngy), adjW ngy (0 + 1 * ngy) k = 3 + (1 / √2 + 1 / √2) := by
        rw [norm_eq (by omega) (by omega)]
        simp [offs8, rawW, InGrid, show 2 < ngx by omega, show 1 < ngy by omega]
        ring
      have := h (0 + 0 * ngy) (hlt (by omega) (by omega)) (0 + 1 * ngy) (hlt (by omega) (by omega))
      have hadj : adjW ngy (0 + 0 * ngy) (0 + 1 * ngy) = 1 := by
        unfold adjW
        rw [(pix_div_mod (by omega)).1, (pix_div_mod (by omega)).2, (pix_div_mod (by omega)).1,
          (pix_div_mod (by omega)).2]
        rw [if_pos ⟨by simp, by simp, by omega⟩]
        simp
      unfold gridW at this
      rw [adjW_symm ngy (0 + 1 * ngy), hadj, hcorner, hedge,
        div_eq_div_iff (by positivity) (by positivity)] at this
      have : (1 : ℝ) + 1 / √2 = 0 := by linear_combination this
      have : (0 : ℝ) < 1 + 1 / √2 := by positivity
      linarith
    · have hedge : ∑ k ∈ Finset.range (ngx * ngy), adjW ngy (1 + 0 * ngy) k = 3 + (1 / √2 + 1 / √2) := by
        rw [norm_eq (by omega) (by omega)]
        simp [offs8, rawW, InGrid, show 1 < ngx by omega, show 2 < ngy by omega]
        ring
      have := h (0 + 0 * ngy) (hlt (by omega) (by omega)) (1 + 0 * ngy) (hlt (by omega) (by omega))
      have hadj : adjW ngy (0 + 0 * ngy) (1 + 0 * ngy) = 1 := by
        unfold adjW
        rw [(pix_div_mod (by omega)).1, (pix_div_mod (by omega)).2, (pix_div_mod (by omega)).1,
          (pix_div_mod (by omega)).2]
        rw [if_pos ⟨by simp, by simp, by omega⟩]
        simp
      unfold gridW at this
      rw [adjW_symm ngy (1 + 0 * ngy), hadj, hcorner, hedge,
        div_eq_div_iff (by positivity) (by positivity)] at this
      have : (1 : ℝ) + 1 / √2 = 0 := by linear_combination this
      have : (0 : ℝ) < 1 + 1 / √2 := by positivity
      linarith
  · rintro ⟨rfl, rfl⟩ j hj k hk
    have hnorm : ∀ i < 2 * 2, ∑ k ∈ Finset.range (2 * 2), adjW 2 i k = 2 + 1 / √2 := by
      intro i hi
      obtain ⟨n, hn, m, hm, rfl⟩ := exists_pix hi
      rw [norm_eq hn hm]
      obtain rfl | rfl : n = 0 ∨ n = 1 := by omega
      · obtain rfl | rfl : m = 0 ∨ m = 1 := by omega
        · simp [offs8, rawW, InGrid]; ring
        · simp [offs8, rawW, InGrid]; ring
      · obtain rfl | rfl : m = 0 ∨ m = 1 := by omega
        · simp [offs8, rawW, InGrid]; ring
        · simp [offs8, rawW, InGrid]; ring
    unfold gridW
    rw [hnorm j hj, hnorm k hk, adjW_symm]

end Tomopy.Iter
