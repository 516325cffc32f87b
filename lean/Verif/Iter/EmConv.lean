import Verif.Iter.ConvMlem
import Mathlib.Topology.Sequences
import Mathlib.Topology.Order.MonotoneConvergence
import Mathlib.Analysis.SpecialFunctions.Log.Basic
import Mathlib.Analysis.SpecialFunctions.Sqrt

/-!
# Convergence of expectation maximisation for Poisson data

For `b j > 0` the iteration `x⁺ i * s i = x i * Σ_j b j / (A x) j * A j i` converges from every
positive start to an image that maximises the likelihood.
-/

set_option linter.unusedSectionVars false

namespace Tomopy.Iter.Em

open Filter Topology

variable {I J : Type} [Fintype I] [Fintype J]

/-- Line integrals. -/
def ap (A : J → I → ℝ) (x : I → ℝ) (j : J) : ℝ := ∑ i, x i * A j i

/-- Column sums. -/
def sens (A : J → I → ℝ) (i : I) : ℝ := ∑ j, A j i

/-- Log likelihood. -/
noncomputable def lik (A : J → I → ℝ) (b : J → ℝ) (x : I → ℝ) : ℝ :=
  ∑ j, (b j * Real.log (ap A x j) - ap A x j)

/-- Back-projected quotients. -/
noncomputable def quot (A : J → I → ℝ) (b : J → ℝ) (x : I → ℝ) (i : I) : ℝ := ∑ j, b j / ap A x j * A j i

/-- Distance used in the proof. -/
noncomputable def kl (u v : ℝ) : ℝ := u * Real.log (u / v) - u + v

theorem sum_ap (A : J → I → ℝ) (x : I → ℝ) : ∑ j, ap A x j = ∑ i, x i * sens A i := by
  unfold ap sens
  rw [Finset.sum_comm]
  exact Finset.sum_congr rfl fun i _ => (Finset.mul_sum _ _ _).symm

theorem sum_quot (A : J → I → ℝ) (b w : J → ℝ) (x z : I → ℝ) :
    ∑ i, z i * ∑ j, b j / ap A x j * A j i * w j = ∑ j, b j / ap A x j * ap A z j * w j := by
  simp only [Finset.mul_sum]
  rw [Finset.sum_comm]
  refine Finset.sum_congr rfl fun j _ => ?_
  unfold ap
  rw [Finset.mul_sum, Finset.sum_mul]
  exact Finset.sum_congr rfl fun i _ => by ring

theorem kl_hellinger {u v : ℝ} (hu : 0 ≤ u) (hv : 0 < v) : (Real.sqrt u - Real.sqrt v) ^ 2 ≤ kl u v := by
  unfold kl
  rcases hu.eq_or_lt with rfl | hu
  · simp [Real.sq_sqrt hv.le]
  have hsu := Real.sqrt_pos.mpr hu
  have hsv := Real.sqrt_pos.mpr hv
  have eu := Real.mul_self_sqrt hu.le
  have ev := Real.mul_self_sqrt hv.le
  have h := Real.log_le_sub_one_of_pos (div_pos hsv hsu)
  have e : Real.log (u / v) = -2 * Real.log (Real.sqrt v / Real.sqrt u) := by
    rw [Real.log_div hu.ne' hv.ne', Real.log_div hsv.ne' hsu.ne', Real.log_sqrt hv.le, Real.log_sqrt hu.le]
    ring
  have e2 : u * (Real.sqrt v / Real.sqrt u - 1) = Real.sqrt u * Real.sqrt v - u := by
    have : u * (Real.sqrt v / Real.sqrt u) = Real.sqrt u * Real.sqrt v := by
      rw [← mul_div_assoc, div_eq_iff hsu.ne']
      nlinarith
    rw [mul_sub, this, mul_one]
  have h2 := mul_le_mul_of_nonneg_left h hu.le
  rw [e2] at h2
  rw [e]
  nlinarith

theorem kl_nonneg {u v : ℝ} (hu : 0 ≤ u) (hv : 0 < v) : 0 ≤ kl u v :=
  (sq_nonneg _).trans (kl_hellinger hu hv)

/-- A ray term is largest if the line integral is the measured value. -/
theorem ray_le {b t : ℝ} (hb : 0 < b) (ht : 0 < t) : b * Real.log t - t ≤ b * Real.log b - b := by
  have h := (log_gap hb ht).1
  rw [Real.log_div hb.ne' ht.ne'] at h
  linarith

variable {A : J → I → ℝ} {b : J → ℝ}

/-- The iteration. -/
structure Run (A : J → I → ℝ) (b : J → ℝ) (x : ℕ → I → ℝ) : Prop where
  a0 : ∀ j i, 0 ≤ A j i
  hit : ∀ j, ∃ i, 0 < A j i
  b0 : ∀ j, 0 < b j
  x0 : ∀ k i, 0 < x k i
  step : ∀ k i, x (k + 1) i * sens A i = x k i * quot A b (x k) i
  still : ∀ k i, sens A i = 0 → x (k + 1) i = x k i

namespace Run

variable {x : ℕ → I → ℝ}

theorem sens_nonneg (h : Run A b x) (i : I) : 0 ≤ sens A i := Finset.sum_nonneg fun j _ => h.a0 j i

theorem col_zero (h : Run A b x) {i : I} (hi : sens A i = 0) (j : J) : A j i = 0 :=
  (Finset.sum_eq_zero_iff_of_nonneg fun j _ => h.a0 j i).mp hi j (Finset.mem_univ j)

theorem ap_pos (h : Run A b x) {y : I → ℝ} (hy : ∀ i, 0 < y i) (j : J) : 0 < ap A y j := by
  obtain ⟨i, hi⟩ := h.hit j
  exact Finset.sum_pos' (fun i _ => mul_nonneg (hy i).le (h.a0 j i)) ⟨i, Finset.mem_univ i, mul_pos (hy i) hi⟩

theorem quot_pos (h : Run A b x) {y : I → ℝ} (hy : ∀ j, 0 < ap A y j) {i : I} (hi : sens A i ≠ 0) :
    0 < quot A b y i := by
  have : ∃ j, 0 < A j i := by
    by_contra hn
    push Not at hn
    exact hi (Finset.sum_eq_zero fun j _ => le_antisymm (hn j) (h.a0 j i))
  obtain ⟨j, hj⟩ := this
  exact Finset.sum_pos' (fun j _ => mul_nonneg (div_pos (h.b0 j) (hy j)).le (h.a0 j i))
    ⟨j, Finset.mem_univ j, mul_pos (div_pos (h.b0 j) (hy j)) hj⟩

theorem mass (h : Run A b x) (k : ℕ) : ∑ i, x (k + 1) i * sens A i = ∑ j, b j := by
  rw [Finset.sum_congr rfl fun i _ => h.step k i]
  have := sum_quot A b (fun _ => 1) (x k) (x k)
  simp only [mul_one] at this
  unfold quot
  rw [this]
  refine Finset.sum_congr rfl fun j _ => ?_
  exact div_mul_cancel₀ _ (h.ap_pos (h.x0 k) j).ne'

/-- The gain of one step. -/
theorem gain (h : Run A b x) (k : ℕ) :
    ∑ i, sens A i * kl (x (k + 1) i) (x k i) ≤ lik A b (x (k + 1)) - lik A b (x k) := by
  have hpx := h.ap_pos (h.x0 k)
  have hpy := h.ap_pos (h.x0 (k + 1))
  have h1 : ∀ j, ∑ i, x k i * (b j / ap A (x k) j * A j i) * Real.log (x (k + 1) i / x k i) ≤
      b j * Real.log (ap A (x (k + 1)) j) - b j * Real.log (ap A (x k) j) := by
    intro j
    have px := hpx j
    have py := hpy j
    have h2 : ∀ i ∈ Finset.univ, x k i * (b j / ap A (x k) j * A j i) * Real.log (x (k + 1) i / x k i) ≤
        b j / ap A (x k) j * ((x k i * A j i) *
          (Real.log (ap A (x (k + 1)) j) - Real.log (ap A (x k) j) - 1) +
          (x (k + 1) i * A j i) * (ap A (x k) j / ap A (x (k + 1)) j)) := by
      intro i _
      have hxn := h.x0 k i
      have hyn := h.x0 (k + 1) i
      have hl := Real.log_le_sub_one_of_pos
        (show 0 < x (k + 1) i / x k i * (ap A (x k) j / ap A (x (k + 1)) j) by positivity)
      rw [Real.log_mul (by positivity) (by positivity), Real.log_div px.ne' py.ne'] at hl
      have hw : 0 ≤ b j / ap A (x k) j * (x k i * A j i) :=
        mul_nonneg (div_pos (h.b0 j) px).le (mul_nonneg hxn.le (h.a0 j i))
      have h3 := mul_le_mul_of_nonneg_left hl hw
      have e : x k i * (x (k + 1) i / x k i) = x (k + 1) i := by field_simp
      have e3 : b j / ap A (x k) j * (x k i * A j i) *
          (x (k + 1) i / x k i * (ap A (x k) j / ap A (x (k + 1)) j) - 1) =
          b j / ap A (x k) j * ((x k i * (x (k + 1) i / x k i)) * A j i *
            (ap A (x k) j / ap A (x (k + 1)) j)) - b j / ap A (x k) j * (x k i * A j i) := by ring
      rw [e3, e] at h3
      linarith
    refine (Finset.sum_le_sum h2).trans (le_of_eq ?_)
    rw [← Finset.mul_sum, Finset.sum_add_distrib, ← Finset.sum_mul, ← Finset.sum_mul]
    change b j / ap A (x k) j * (ap A (x k) j * _ + ap A (x (k + 1)) j * _) = _
    field_simp
    ring
  have h4 := Finset.sum_le_sum fun j (_ : j ∈ Finset.univ) => h1 j
  rw [Finset.sum_comm] at h4
  have h5 : ∑ i, ∑ j, x k i * (b j / ap A (x k) j * A j i) * Real.log (x (k + 1) i / x k i) =
      ∑ i, sens A i * (x (k + 1) i * Real.log (x (k + 1) i / x k i)) := by
    refine Finset.sum_congr rfl fun i _ => ?_
    rw [← Finset.sum_mul, ← Finset.mul_sum]
    change x k i * quot A b (x k) i * _ = _
    rw [← h.step k i]
    ring
  rw [h5] at h4
  have h7 : ∑ i, sens A i * kl (x (k + 1) i) (x k i) =
      ∑ i, sens A i * (x (k + 1) i * Real.log (x (k + 1) i / x k i)) -
        ∑ j, ap A (x (k + 1)) j + ∑ j, ap A (x k) j := by
    rw [sum_ap, sum_ap, ← Finset.sum_sub_distrib, ← Finset.sum_add_distrib]
    exact Finset.sum_congr rfl fun i _ => by unfold kl; ring
  rw [h7]
  unfold lik
  simp only [Finset.sum_sub_distrib] at h4 ⊢
  linarith

theorem lik_mono (h : Run A b x) : Monotone fun k => lik A b (x k) := by
  apply monotone_nat_of_le_succ
  intro k
  have h1 := h.gain k
  have h2 : 0 ≤ ∑ i, sens A i * kl (x (k + 1) i) (x k i) :=
    Finset.sum_nonneg fun i _ => mul_nonneg (h.sens_nonneg i) (kl_nonneg (h.x0 _ i).le (h.x0 _ i))
  linarith

theorem lik_le (h : Run A b x) {y : I → ℝ} (hy : ∀ j, 0 < ap A y j) :
    lik A b y ≤ ∑ j, (b j * Real.log (b j) - b j) :=
  Finset.sum_le_sum fun j _ => ray_le (h.b0 j) (hy j)

/-- Line integrals stay away from zero. -/
theorem ap_away (h : Run A b x) (j : J) : ∃ δ > 0, ∀ k, δ ≤ ap A (x k) j := by
  classical
  refine ⟨Real.exp ((lik A b (x 0) - ∑ j' ∈ Finset.univ.erase j, (b j' * Real.log (b j') - b j')) / b j),
    Real.exp_pos _, fun k => ?_⟩
  have hp := h.ap_pos (h.x0 k)
  rw [← Real.le_log_iff_exp_le (hp j), div_le_iff₀ (h.b0 j)]
  have h1 : lik A b (x 0) ≤ lik A b (x k) := h.lik_mono (Nat.zero_le k)
  have h2 : lik A b (x k) ≤ (b j * Real.log (ap A (x k) j) - ap A (x k) j) +
      ∑ j' ∈ Finset.univ.erase j, (b j' * Real.log (b j') - b j') := by
    unfold lik
    rw [← Finset.add_sum_erase _ _ (Finset.mem_univ j)]
    exact add_le_add (le_refl _) (Finset.sum_le_sum fun j' _ => ray_le (h.b0 j') (hp j'))
  have := hp j
  linarith

/-- All iterates lie in a compact box. -/
theorem bounded (h : Run A b x) (k : ℕ) (i : I) : x k i ≤ x 0 i + (∑ j, b j) / sens A i := by
  have hb : 0 ≤ (∑ j, b j) / sens A i :=
    div_nonneg (Finset.sum_nonneg fun j _ => (h.b0 j).le) (h.sens_nonneg i)
  rcases (h.sens_nonneg i).eq_or_lt with hi | hi
  · have : x k i = x 0 i := by
      induction k with
      | zero => rfl
      | succ k ih => rw [h.still k i hi.symm, ih]
    rw [this]
    linarith
  · cases k with
    | zero => linarith
    | succ k =>
      have h1 : x (k + 1) i * sens A i ≤ ∑ j, b j := by
        rw [← h.mass k]
        exact Finset.single_le_sum (f := fun i => x (k + 1) i * sens A i)
          (fun i _ => mul_nonneg (h.x0 _ i).le (h.sens_nonneg i)) (Finset.mem_univ i)
      have h2 : x (k + 1) i ≤ (∑ j, b j) / sens A i := (le_div_iff₀ hi).mpr h1
      have h3 := h.x0 0 i
      linarith

theorem ap_tendsto {y : ℕ → I → ℝ} {z : I → ℝ} (hy : Tendsto y atTop (𝓝 z)) (j : J) :
    Tendsto (fun k => ap A (y k) j) atTop (𝓝 (ap A z j)) :=
  tendsto_finsetSum _ fun i _ => ((tendsto_pi_nhds.mp hy) i).mul_const _

theorem lik_tendsto {y : ℕ → I → ℝ} {z : I → ℝ} (hy : Tendsto y atTop (𝓝 z)) (hz : ∀ j, 0 < ap A z j) :
    Tendsto (fun k => lik A b (y k)) atTop (𝓝 (lik A b z)) :=
  tendsto_finsetSum _ fun j _ => (((ap_tendsto hy j).log (hz j).ne').const_mul _).sub (ap_tendsto hy j)

theorem quot_tendsto {y : ℕ → I → ℝ} {z : I → ℝ} (hy : Tendsto y atTop (𝓝 z)) (hz : ∀ j, 0 < ap A z j)
    (i : I) : Tendsto (fun k => quot A b (y k) i) atTop (𝓝 (quot A b z i)) :=
  tendsto_finsetSum _ fun j _ => (tendsto_const_nhds.div (ap_tendsto hy j) (hz j).ne').mul_const _

/-- A limit of a part of the iterates. -/
theorem cluster (h : Run A b x) : ∃ z, (∀ i, 0 ≤ z i) ∧ (∀ j, 0 < ap A z j) ∧
    (∀ i, z i * sens A i = z i * quot A b z i) ∧ (∀ k, lik A b (x k) ≤ lik A b z) ∧
    ∃ φ : ℕ → ℕ, StrictMono φ ∧ Tendsto (x ∘ φ) atTop (𝓝 z) := by
  have hcomp : IsCompact (Set.univ.pi fun i => Set.Icc 0 (x 0 i + (∑ j, b j) / sens A i)) :=
    isCompact_univ_pi fun i => isCompact_Icc
  obtain ⟨z, hz, φ, hφ, hlim⟩ := hcomp.tendsto_subseq (x := x)
    (fun k => fun i _ => ⟨(h.x0 k i).le, h.bounded k i⟩)
  have hz0 : ∀ i, 0 ≤ z i := fun i => (hz i (Set.mem_univ i)).1
  have hap : ∀ j, 0 < ap A z j := by
    intro j
    obtain ⟨δ, hδ, hle⟩ := h.ap_away j
    exact lt_of_lt_of_le hδ (ge_of_tendsto' (ap_tendsto hlim j) fun k => hle (φ k))
  -- the likelihoods converge
  have hbdd : BddAbove (Set.range fun k => lik A b (x k)) :=
    ⟨_, by rintro _ ⟨k, rfl⟩; exact h.lik_le (h.ap_pos (h.x0 k))⟩
  have hl := tendsto_atTop_ciSup h.lik_mono hbdd
  have hl1 := lik_tendsto (b := b) hlim hap
  have heq := tendsto_nhds_unique (hl.comp hφ.tendsto_atTop) hl1
  have hle : ∀ k, lik A b (x k) ≤ lik A b z := fun k => by rw [← heq]; exact le_ciSup hbdd k
  refine ⟨z, hz0, hap, ?_, hle, φ, hφ, hlim⟩
  -- the gains tend to zero
  have hgain : Tendsto (fun k => ∑ i, sens A i * kl (x (φ k + 1) i) (x (φ k) i)) atTop (𝓝 0) := by
    have h1 : Tendsto (fun k => lik A b (x (k + 1)) - lik A b (x k)) atTop (𝓝 0) := by
      have := (hl.comp (tendsto_add_atTop_nat 1)).sub hl
      rwa [sub_self] at this
    refine squeeze_zero (fun k => ?_) (fun k => h.gain (φ k)) (h1.comp hφ.tendsto_atTop)
    exact Finset.sum_nonneg fun i _ =>
      mul_nonneg (h.sens_nonneg i) (kl_nonneg (h.x0 _ i).le (h.x0 _ i))
  intro i
  by_cases hi : sens A i = 0
  · have : quot A b z i = 0 := Finset.sum_eq_zero fun j _ => by rw [h.col_zero hi j, mul_zero]
    rw [this, hi]
  have hip : 0 < sens A i := lt_of_le_of_ne (h.sens_nonneg i) (Ne.symm hi)
  by_cases hzi : z i = 0
  · rw [hzi, zero_mul, zero_mul]
  have hone : Tendsto (fun k => sens A i * kl (x (φ k + 1) i) (x (φ k) i)) atTop (𝓝 0) := by
    refine squeeze_zero (fun k => mul_nonneg hip.le (kl_nonneg (h.x0 _ i).le (h.x0 _ i))) (fun k => ?_) hgain
    exact Finset.single_le_sum (f := fun i => sens A i * kl (x (φ k + 1) i) (x (φ k) i))
      (fun i _ => mul_nonneg (h.sens_nonneg i) (kl_nonneg (h.x0 _ i).le (h.x0 _ i))) (Finset.mem_univ i)
  have hq := quot_pos h (b := b) hap hi
  have hnext : Tendsto (fun k => x (φ k + 1) i) atTop (𝓝 (z i * quot A b z i / sens A i)) := by
    have h1 := (((tendsto_pi_nhds.mp hlim) i).mul (quot_tendsto (b := b) hlim hap i)).div_const (sens A i)
    refine h1.congr fun k => ?_
    simp only [Function.comp]
    rw [← h.step (φ k) i]
    field_simp
  have hzp : 0 < z i := lt_of_le_of_ne (hz0 i) (Ne.symm hzi)
  have hnp : 0 < z i * quot A b z i / sens A i := by positivity
  have hkl : Tendsto (fun k => sens A i * kl (x (φ k + 1) i) (x (φ k) i)) atTop
      (𝓝 (sens A i * kl (z i * quot A b z i / sens A i) (z i))) := by
    unfold kl
    have hx := (tendsto_pi_nhds.mp hlim) i
    exact (((hnext.mul ((hnext.div hx hzi).log (div_pos hnp hzp).ne')).sub hnext).add hx).const_mul _
  have h0 := tendsto_nhds_unique hkl hone
  have h1 : kl (z i * quot A b z i / sens A i) (z i) = 0 := by
    rcases mul_eq_zero.mp h0 with h2 | h2
    · exact absurd h2 hi
    · exact h2
  have h2 := (log_gap hnp hzp).2 h1
  field_simp at h2
  rw [mul_comm (z i) (quot A b z i), mul_comm (z i) (sens A i)]
  nlinarith

theorem converges (h : Run A b x) : ∃ z, (∀ i, 0 ≤ z i) ∧ (∀ j, 0 < ap A z j) ∧
    (∀ i, z i * sens A i = z i * quot A b z i) ∧ (∀ i, quot A b z i ≤ sens A i) ∧
    Tendsto x atTop (𝓝 z) := by
  obtain ⟨z, hz0, hap, hfix, hle, φ, hφ, hlim⟩ := h.cluster
  have hmass : ∑ j, ap A z j = ∑ j, b j := by
    rw [sum_ap, Finset.sum_congr rfl fun i _ => hfix i]
    have := sum_quot A b (fun _ => 1) z z
    simp only [mul_one] at this
    unfold quot
    rw [this]
    exact Finset.sum_congr rfl fun j _ => div_mul_cancel₀ _ (hap j).ne'
  -- the distance to the limit decreases
  have hanti : Antitone fun k => ∑ i, sens A i * kl (z i) (x k i) := by
    apply antitone_nat_of_succ_le
    intro k
    have hpx := h.ap_pos (h.x0 k)
    -- Jensen, pixel by pixel
    have hj : ∀ i, z i * ∑ j, b j / ap A z j * A j i * Real.log (ap A z j / ap A (x k) j) ≤
        sens A i * (z i * (Real.log (z i / x k i) - Real.log (z i / x (k + 1) i))) := by
      intro i
      by_cases hzi : z i = 0
      · rw [hzi]; simp
      by_cases hi : sens A i = 0
      · have : ∀ j, b j / ap A z j * A j i * Real.log (ap A z j / ap A (x k) j) = 0 := fun j => by
          rw [h.col_zero hi j]; ring
        rw [Finset.sum_congr rfl fun j _ => this j, hi]
        simp
      have hip : 0 < sens A i := lt_of_le_of_ne (h.sens_nonneg i) (Ne.symm hi)
      have hzp : 0 < z i := lt_of_le_of_ne (hz0 i) (Ne.symm hzi)
      have hx := h.x0 k i
      have hx' := h.x0 (k + 1) i
      have hw : quot A b z i = sens A i := (mul_left_cancel₀ hzi (hfix i)).symm
      have hq := quot_pos h (b := b) hpx hi
      obtain ⟨S, hS⟩ : ∃ S, S = quot A b (x k) i / sens A i := ⟨_, rfl⟩
      have hSp : 0 < S := by rw [hS]; positivity
      have hratio : Real.log (z i / x k i) - Real.log (z i / x (k + 1) i) = Real.log S := by
        rw [Real.log_div hzi hx.ne', Real.log_div hzi hx'.ne']
        have : x (k + 1) i = x k i * S := by
          rw [hS, ← mul_div_assoc, ← h.step k i]
          field_simp
        rw [this, Real.log_mul hx.ne' hSp.ne']
        ring
      rw [hratio]
      have hterm : ∀ j ∈ Finset.univ, b j / ap A z j * A j i * Real.log (ap A z j / ap A (x k) j) ≤
          b j / ap A z j * A j i * (Real.log S - 1) + b j / ap A (x k) j * A j i / S := by
        intro j _
        have p1 := hap j
        have p2 := hpx j
        have hl := Real.log_le_sub_one_of_pos (show 0 < ap A z j / ap A (x k) j / S by positivity)
        rw [Real.log_div (by positivity) hSp.ne'] at hl
        have hw0 : 0 ≤ b j / ap A z j * A j i := mul_nonneg (div_pos (h.b0 j) p1).le (h.a0 j i)
        have h3 := mul_le_mul_of_nonneg_left hl hw0
        have e : b j / ap A z j * A j i * (ap A z j / ap A (x k) j / S - 1) =
            b j / ap A (x k) j * A j i / S - b j / ap A z j * A j i := by
          field_simp
        rw [e] at h3
        linarith
      have hsum := Finset.sum_le_sum hterm
      rw [Finset.sum_add_distrib, ← Finset.sum_mul, ← Finset.sum_div] at hsum
      change _ ≤ quot A b z i * _ + quot A b (x k) i / S at hsum
      have e2 : quot A b (x k) i / S = sens A i := by rw [hS]; field_simp
      rw [hw, e2] at hsum
      have := mul_le_mul_of_nonneg_left hsum hzp.le
      linarith
    have hsum := Finset.sum_le_sum fun i (_ : i ∈ Finset.univ) => hj i
    rw [sum_quot] at hsum
    have e1 : ∑ j, b j / ap A z j * ap A z j * Real.log (ap A z j / ap A (x k) j) =
        ∑ j, (b j * Real.log (ap A z j)) - ∑ j, (b j * Real.log (ap A (x k) j)) := by
      rw [← Finset.sum_sub_distrib]
      refine Finset.sum_congr rfl fun j _ => ?_
      rw [div_mul_cancel₀ _ (hap j).ne', Real.log_div (hap j).ne' (hpx j).ne']
      ring
    rw [e1] at hsum
    have hL := hle k
    unfold lik at hL
    simp only [Finset.sum_sub_distrib] at hL
    rw [hmass, sum_ap A (x k)] at hL
    have hm := h.mass k
    have e2 : ∑ i, sens A i * kl (z i) (x k i) - ∑ i, sens A i * kl (z i) (x (k + 1) i) =
        ∑ i, sens A i * (z i * (Real.log (z i / x k i) - Real.log (z i / x (k + 1) i))) +
          (∑ i, x k i * sens A i - ∑ i, x (k + 1) i * sens A i) := by
      rw [← Finset.sum_sub_distrib, ← Finset.sum_sub_distrib, ← Finset.sum_add_distrib]
      exact Finset.sum_congr rfl fun i _ => by unfold kl; ring
    linarith
  have hnn : ∀ k i, 0 ≤ sens A i * kl (z i) (x k i) := fun k i =>
    mul_nonneg (h.sens_nonneg i) (kl_nonneg (hz0 i) (h.x0 k i))
  have hD : Tendsto (fun k => ∑ i, sens A i * kl (z i) (x k i)) atTop (𝓝 0) := by
    have h1 := tendsto_atTop_ciInf hanti
      ⟨0, by rintro _ ⟨k, rfl⟩; exact Finset.sum_nonneg fun i _ => hnn k i⟩
    have h2 : Tendsto (fun k => ∑ i, sens A i * kl (z i) (x (φ k) i)) atTop (𝓝 (∑ i : I, (0 : ℝ))) := by
      refine tendsto_finsetSum _ fun i _ => ?_
      have hx := (tendsto_pi_nhds.mp hlim) i
      simp only [Function.comp] at hx
      have : Tendsto (fun k => kl (z i) (x (φ k) i)) atTop (𝓝 0) := by
        unfold kl
        by_cases hzi : z i = 0
        · rw [hzi] at hx ⊢
          simpa using hx
        · have hd := (tendsto_const_nhds (x := z i)).div hx hzi
          rw [div_self hzi] at hd
          have := (((hd.log one_ne_zero).const_mul (z i)).sub_const (z i)).add hx
          simpa using this
      simpa using this.const_mul (sens A i)
    rw [Finset.sum_const_zero] at h2
    have h3 := tendsto_nhds_unique (h1.comp hφ.tendsto_atTop) h2
    rwa [h3] at h1
  have hto : Tendsto x atTop (𝓝 z) := by
    rw [tendsto_pi_nhds]
    intro i
    rcases (h.sens_nonneg i).eq_or_lt with hi | hi
    · have hc : ∀ k, x k i = x 0 i := by
        intro k
        induction k with
        | zero => rfl
        | succ k ih => rw [h.still k i hi.symm, ih]
      have hx := (tendsto_pi_nhds.mp hlim) i
      simp only [Function.comp, hc] at hx
      simp only [hc]
      exact hx
    · have h1 : Tendsto (fun k => sens A i * kl (z i) (x k i)) atTop (𝓝 0) := by
        refine squeeze_zero (fun k => hnn k i) (fun k => ?_) hD
        exact Finset.single_le_sum (f := fun i => sens A i * kl (z i) (x k i)) (fun i _ => hnn k i)
          (Finset.mem_univ i)
      have h2 := h1.const_mul (sens A i)⁻¹
      rw [mul_zero] at h2
      have h3 : Tendsto (fun k => (Real.sqrt (z i) - Real.sqrt (x k i)) ^ 2) atTop (𝓝 0) := by
        refine squeeze_zero (fun k => sq_nonneg _) (fun k => ?_) h2
        rw [← mul_assoc, inv_mul_cancel₀ hi.ne', one_mul]
        exact kl_hellinger (hz0 i) (h.x0 k i)
      have h4 : Tendsto (fun k => |Real.sqrt (z i) - Real.sqrt (x k i)|) atTop (𝓝 0) := by
        have := h3.sqrt
        simp only [Real.sqrt_sq_eq_abs, Real.sqrt_zero] at this
        exact this
      have h5 := (tendsto_zero_iff_abs_tendsto_zero _).mpr h4
      have h6 : Tendsto (fun k => Real.sqrt (x k i)) atTop (𝓝 (Real.sqrt (z i))) := by
        have := h5.const_sub (Real.sqrt (z i))
        simpa using this
      have h7 := h6.pow 2
      rw [Real.sq_sqrt (hz0 i)] at h7
      refine h7.congr fun k => Real.sq_sqrt (h.x0 k i).le
  refine ⟨z, hz0, hap, hfix, fun i => ?_, hto⟩
  rcases (h.sens_nonneg i).eq_or_lt with hi | hi
  · have : quot A b z i = 0 := Finset.sum_eq_zero fun j _ => by rw [h.col_zero hi.symm j, mul_zero]
    rw [this, ← hi]
  by_cases hzi : z i = 0
  · by_contra hgt
    rw [not_le] at hgt
    have hq := quot_tendsto (b := b) hto hap i
    obtain ⟨K, hK⟩ := eventually_atTop.mp (hq.eventually (lt_mem_nhds hgt))
    have hgrow : ∀ m, x K i ≤ x (K + m) i := by
      intro m
      induction m with
      | zero => exact le_refl _
      | succ m ih =>
        refine ih.trans ?_
        have h1 := h.step (K + m) i
        have h2 := hK (K + m) (by omega)
        have h3 := h.x0 (K + m) i
        have h4 : x (K + m) i * sens A i ≤ x (K + m + 1) i * sens A i := by
          rw [h1]
          exact mul_le_mul_of_nonneg_left h2.le h3.le
        exact le_of_mul_le_mul_right h4 hi
    have hx := (tendsto_pi_nhds.mp hto) i
    rw [hzi] at hx
    have h5 := ge_of_tendsto hx (eventually_atTop.mpr ⟨K, fun k hk => by
      have := hgrow (k - K)
      rwa [Nat.add_sub_cancel' hk] at this⟩)
    linarith [h.x0 K i]
  · exact (mul_left_cancel₀ hzi (hfix i)).symm.le

end Run

/-- The conditions of Karush, Kuhn and Tucker are sufficient. -/
theorem maximises (hb : ∀ j, 0 < b j) {z y : I → ℝ} (hap : ∀ j, 0 < ap A z j)
    (hfix : ∀ i, z i * sens A i = z i * quot A b z i) (hq : ∀ i, quot A b z i ≤ sens A i)
    (hy : ∀ i, 0 ≤ y i) (hay : ∀ j, 0 < ap A y j) : lik A b y ≤ lik A b z := by
  have h1 : ∀ j ∈ Finset.univ, b j * Real.log (ap A y j) - ap A y j ≤
      (b j * Real.log (ap A z j) - ap A z j) + (b j / ap A z j * ap A y j - ap A y j) -
        (b j / ap A z j * ap A z j - ap A z j) := by
    intro j _
    have hl := Real.log_le_sub_one_of_pos (div_pos (hay j) (hap j))
    rw [Real.log_div (hay j).ne' (hap j).ne'] at hl
    have h2 := mul_le_mul_of_nonneg_left hl (hb j).le
    have e : b j * (ap A y j / ap A z j - 1) = b j / ap A z j * ap A y j - b j / ap A z j * ap A z j := by
      have := (hap j).ne'
      field_simp
    rw [e] at h2
    linarith
  have h2 : lik A b y ≤ _ := Finset.sum_le_sum h1
  rw [Finset.sum_sub_distrib, Finset.sum_add_distrib] at h2
  have h3 : ∀ w : I → ℝ, ∑ j, (b j / ap A z j * ap A w j - ap A w j) =
      ∑ i, w i * (quot A b z i - sens A i) := by
    intro w
    rw [Finset.sum_sub_distrib, sum_ap]
    have := sum_quot A b (fun _ => 1) z w
    simp only [mul_one] at this
    rw [← this, ← Finset.sum_sub_distrib]
    exact Finset.sum_congr rfl fun i _ => by unfold quot; ring
  rw [h3, h3] at h2
  have h4 : ∑ i, z i * (quot A b z i - sens A i) = 0 :=
    Finset.sum_eq_zero fun i _ => by rw [mul_sub, ← hfix i, sub_self]
  have h5 : ∑ i, y i * (quot A b z i - sens A i) ≤ 0 :=
    Finset.sum_nonpos fun i _ => mul_nonpos_of_nonneg_of_nonpos (hy i) (by linarith [hq i])
  have h6 : lik A b z = ∑ j, (b j * Real.log (ap A z j) - ap A z j) := rfl
  linarith

end Tomopy.Iter.Em
