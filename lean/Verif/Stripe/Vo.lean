import Verif.Stripe.VoModel
import Mathlib.Algebra.BigOperators.Ring.Finset
import Mathlib.Algebra.BigOperators.Field
import Mathlib.Algebra.Order.BigOperators.Group.Finset
import Mathlib.Algebra.Order.BigOperators.Ring.Finset
import Mathlib.Algebra.Order.Floor.Semiring
import Mathlib.Data.Rat.Floor
import Mathlib.Tactic.FieldSimp
import Mathlib.Tactic.Ring
import Mathlib.Tactic.LinearCombination
import Mathlib.Tactic.Positivity

/-! Theorems about the detection of stripes (C81). -/
set_option linter.unusedSectionVars false

namespace Tomopy.Stripe
open Tomopy.Num

variable {K : Type} [LinearOrder K] [Field K] [IsStrictOrderedRing K] [FloorRing K]

/-! ### The straight line -/

/-- **C81** With at least two points the line is the least-squares line: no other line has a smaller
sum of squared residuals. -/
theorem fit_least_squares (lo hi : Nat) (h : lo + 2 ≤ hi) (y : Nat → K) :
    ∃ s b : K, polyfit1 lo hi y = .ok (s, b) ∧ ∀ s' b' : K,
      ∑ k ∈ Finset.Ico lo hi, (y k - (b + s * k)) ^ 2
        ≤ ∑ k ∈ Finset.Ico lo hi, (y k - (b' + s' * k)) ^ 2 := by
  unfold polyfit1
  rw [if_neg (by omega), if_neg (by omega)]
  dsimp only
  set p : K := ((hi - lo : Nat) : K) with hp
  have hp0 : p ≠ 0 := by
    rw [hp]; exact_mod_cast (by omega : hi - lo ≠ 0)
  have hcard : ∀ c : K, ∑ _k ∈ Finset.Ico lo hi, c = p * c := by
    intro c; rw [Finset.sum_const, Nat.card_Ico, nsmul_eq_mul]
  set mx := (∑ k ∈ Finset.Ico lo hi, (k : K)) / p with hmx
  set my := (∑ k ∈ Finset.Ico lo hi, y k) / p with hmy
  set D := ∑ k ∈ Finset.Ico lo hi, ((k : K) - mx) ^ 2 with hD
  set N := ∑ k ∈ Finset.Ico lo hi, ((k : K) - mx) * (y k - my) with hN
  have hsx : ∑ k ∈ Finset.Ico lo hi, ((k : K) - mx) = 0 := by
    rw [Finset.sum_sub_distrib, hcard, hmx]; field_simp; ring
  have hsy : ∑ k ∈ Finset.Ico lo hi, (y k - my) = 0 := by
    rw [Finset.sum_sub_distrib, hcard, hmy]; field_simp; ring
  have hD0 : D ≠ 0 := by
    intro e
    have h0 := (Finset.sum_eq_zero_iff_of_nonneg (fun (k : Nat) _ => sq_nonneg ((k : K) - mx))).1 e
    have h1 := h0 lo (Finset.mem_Ico.2 ⟨le_refl _, by omega⟩)
    have h2 := h0 (lo + 1) (Finset.mem_Ico.2 ⟨by omega, by omega⟩)
    have h1 := pow_eq_zero_iff (two_ne_zero) |>.1 h1
    have h2 := pow_eq_zero_iff (two_ne_zero) |>.1 h2
    push_cast at h2
    have : (1 : K) = 0 := by linear_combination h2 - h1
    exact one_ne_zero this
  refine ⟨N / D, my - N / D * mx, rfl, fun s' b' => ?_⟩
  set s := N / D with hs
  have hND : N = s * D := by rw [hs]; field_simp
  -- residuals of the fit are orthogonal to lines
  have key : ∑ k ∈ Finset.Ico lo hi, (y k - (b' + s' * k)) ^ 2
      = ∑ k ∈ Finset.Ico lo hi, (y k - (my - s * mx + s * k)) ^ 2
        + ∑ k ∈ Finset.Ico lo hi, ((my - s * mx + s * k) - (b' + s' * (k : K))) ^ 2 := by
    have e1 : ∀ k : Nat, (y k - (b' + s' * k)) ^ 2 = (y k - (my - s * mx + s * k)) ^ 2
        + ((my - s * mx + s * k) - (b' + s' * (k : K))) ^ 2
        + (2 * ((my - b' - s' * mx) * (y k - my)) - 2 * s * (my - b' - s' * mx) * ((k : K) - mx)
          + 2 * (s - s') * ((k : K) - mx) * (y k - my) - 2 * (s - s') * s * ((k : K) - mx) ^ 2) := by
      intro k; ring
    rw [Finset.sum_congr rfl fun k _ => e1 k, Finset.sum_add_distrib, Finset.sum_add_distrib]
    have e2 : ∑ k ∈ Finset.Ico lo hi, (2 * ((my - b' - s' * mx) * (y k - my))
        - 2 * s * (my - b' - s' * mx) * ((k : K) - mx)
        + 2 * (s - s') * ((k : K) - mx) * (y k - my) - 2 * (s - s') * s * ((k : K) - mx) ^ 2) = 0 := by
      rw [Finset.sum_sub_distrib, Finset.sum_add_distrib, Finset.sum_sub_distrib,
        ← Finset.mul_sum, ← Finset.mul_sum, ← Finset.mul_sum, ← Finset.mul_sum, hsx, hsy]
      have : ∑ i ∈ Finset.Ico lo hi, 2 * (s - s') * ((i : K) - mx) * (y i - my)
          = 2 * (s - s') * N := by
        rw [hN, Finset.mul_sum]; exact Finset.sum_congr rfl fun _ _ => by ring
      rw [this, hND]
      ring
    rw [e2]; ring
  rw [key]
  exact le_add_of_nonneg_right (Finset.sum_nonneg fun _ _ => sq_nonneg _)

example : polyfit1 1 4 (fun k => (2 * k + 3 : ℚ)) = .ok (2, 3) := by decide +kernel

/-- Constant data give a horizontal line. -/
theorem fit_const (lo hi : Nat) (h : lo + 2 ≤ hi) (y : Nat → K) (c : K)
    (hy : ∀ k, lo ≤ k → k < hi → y k = c) : polyfit1 lo hi y = .ok (0, c) := by
  unfold polyfit1
  rw [if_neg (by omega), if_neg (by omega)]
  dsimp only
  have hp0 : ((hi - lo : Nat) : K) ≠ 0 := by exact_mod_cast (by omega : hi - lo ≠ 0)
  have e1 : (∑ k ∈ Finset.Ico lo hi, y k) / ((hi - lo : Nat) : K) = c := by
    rw [Finset.sum_congr rfl fun k hk => hy k (Finset.mem_Ico.1 hk).1 (Finset.mem_Ico.1 hk).2,
      Finset.sum_const, Nat.card_Ico, nsmul_eq_mul]
    field_simp
  rw [e1]
  have e2 : ∑ k ∈ Finset.Ico lo hi, ((k : K) - (∑ k ∈ Finset.Ico lo hi, (k : K))
      / ((hi - lo : Nat) : K)) * (y k - c) = 0 := by
    refine Finset.sum_eq_zero fun k hk => ?_
    rw [hy k (Finset.mem_Ico.1 hk).1 (Finset.mem_Ico.1 hk).2, sub_self, mul_zero]
  rw [e2]
  simp

/-! ### Detection -/

theorem sortedDesc_eq (n : Nat) (l : Nat → K) (k : Nat) (hk : k < n) :
    sortedDesc n l k = (sortL ((List.range n).map l))[n - 1 - k]'(by
      rw [length_sortL]; simp; omega) := by
  unfold sortedDesc
  have hl : (sortL ((List.range n).map l)).length = n := by rw [length_sortL]; simp
  rw [List.getD_eq_getElem _ _ (by rw [List.length_reverse, hl]; exact hk), List.getElem_reverse]
  congr 1
  rw [hl]

theorem sortedDesc_isRank (n : Nat) (l : Nat → K) (k : Nat) (hk : k < n) :
    IsRank ((List.range n).map l) (n - 1 - k) (sortedDesc n l k) := by
  rw [sortedDesc_eq n l k hk]
  exact sortL_isRank _ _ _

theorem sortedDesc_mem (n : Nat) (l : Nat → K) (k : Nat) (hk : k < n) :
    ∃ i < n, sortedDesc n l k = l i := by
  rw [sortedDesc_eq n l k hk]
  have := mem_sortL.1 (List.getElem_mem (l := sortL ((List.range n).map l)) (n := n - 1 - k) (by
      rw [length_sortL]; simp; omega))
  obtain ⟨i, hi, e⟩ := List.mem_map.1 this
  exact ⟨i, List.mem_range.1 hi, e.symm⟩

theorem le_sortedDesc_zero (n : Nat) (l : Nat → K) (i : Nat) (hi : i < n) :
    l i ≤ sortedDesc n l 0 := by
  rw [sortedDesc_eq n l 0 (by omega)]
  have hl : (sortL ((List.range n).map l)).length = n := by rw [length_sortL]; simp
  have : l i ∈ sortL ((List.range n).map l) :=
    mem_sortL.2 (List.mem_map.2 ⟨i, List.mem_range.2 hi, rfl⟩)
  obtain ⟨k, hk, e⟩ := List.getElem_of_mem this
  rw [← e]
  exact sortL_mono _ (by omega) _

theorem sortedDesc_last_le (n : Nat) (l : Nat → K) (i : Nat) (hi : i < n) :
    sortedDesc n l (n - 1) ≤ l i := by
  rw [sortedDesc_eq n l (n - 1) (by omega)]
  have : l i ∈ sortL ((List.range n).map l) :=
    mem_sortL.2 (List.mem_map.2 ⟨i, List.mem_range.2 hi, rfl⟩)
  obtain ⟨k, hk, e⟩ := List.getElem_of_mem this
  rw [← e]
  exact sortL_mono _ (by omega) _

/-- If few values lie above and few below `c`, the middle of the sorted list is `c`. -/
theorem sortedDesc_middle (n : Nat) (l : Nat → K) (c : K) (k : Nat) (hk : k < n)
    (ha : (List.range n).countP (fun i => decide (c < l i)) ≤ k)
    (hb : (List.range n).countP (fun i => decide (l i < c)) ≤ n - 1 - k) :
    sortedDesc n l k = c := by
  refine (sortedDesc_isRank n l k hk).unique ⟨?_, ?_⟩
  · rw [List.countP_map]; exact hb
  · rw [List.countP_map]
    have := List.length_eq_countP_add_countP (fun i => decide (c < l i)) (l := List.range n)
    rw [List.length_range] at this
    have h2 : (List.range n).countP (fun i => decide ¬ (decide (c < l i) = true))
        = (List.range n).countP ((fun x => decide (x ≤ c)) ∘ l) := by
      refine List.countP_congr fun i _ => ?_
      simp
    omega

/-- **C81** On a flat list with outliers exactly the outliers are marked: suppose the entries differ
from `c` by nothing or by at least `snr` millionths, at most a quarter of them lie above and at most
one more than a quarter below.  (Flat lists with four entries are the exception, see
`detect_four`.) -/
theorem detect_outliers (n : Nat) (hn : n = 3 ∨ 5 ≤ n) (l : Nat → K) (c snr : K) (hsnr : 0 < snr)
    (hout : ∀ i < n, l i = c ∨ snr / 1000000 ≤ |l i - c|)
    (ha : (List.range n).countP (fun i => decide (c < l i)) ≤ n / 4)
    (hb : (List.range n).countP (fun i => decide (l i < c)) ≤ n / 4 + 1) :
    ∃ m, detectStripe n l snr = .ok m ∧ ∀ i < n, m i = true ↔ l i ≠ c := by
  unfold detectStripe
  dsimp only
  rw [fit_const (n / 4) (n - n / 4 - 1) (by omega) (sortedDesc n l) c fun k h1 h2 =>
    sortedDesc_middle n l c k (by omega) (by omega) (by omega)]
  dsimp only
  refine ⟨_, rfl, fun i hi => ?_⟩
  have hnoise : max |c + 0 * ((n - 1 : Nat) : K) - c| (1 / 1000000) = 1 / 1000000 := by
    rw [zero_mul, add_zero, sub_self, abs_zero]
    exact max_eq_right (by positivity)
  rw [hnoise, zero_mul, add_zero]
  have hM := le_sortedDesc_zero n l
  have hm := sortedDesc_last_le n l
  obtain ⟨i0, hi0, e0⟩ := sortedDesc_mem n l 0 (by omega)
  obtain ⟨i1, hi1, e1⟩ := sortedDesc_mem n l (n - 1) (by omega)
  simp only [Bool.or_eq_true, Bool.and_eq_true, decide_eq_true_eq]
  have hq : (0 : K) < 1 / 1000000 := by positivity
  have hs : (0 : K) < 1 / 1000000 * snr / 2 := by positivity
  constructor
  · rintro (⟨_, h2⟩ | ⟨_, h2⟩) e
    · rw [e] at h2; linarith
    · rw [e] at h2; linarith
  · intro hne
    have hd := (hout i hi).resolve_left hne
    rcases lt_or_gt_of_ne hne with hlt | hgt
    · right
      rw [abs_of_neg (by linarith)] at hd
      have h1 := hm i hi
      refine ⟨?_, by linarith⟩
      rw [le_div_iff₀ hq, abs_of_neg (by linarith)]
      linarith
    · left
      rw [abs_of_pos (by linarith)] at hd
      have h1 := hM i hi
      refine ⟨?_, by linarith⟩
      rw [le_div_iff₀ hq, abs_of_pos (by linarith)]
      linarith

/-- **C81** Nothing is marked in a flat list. -/
theorem detect_flat (n : Nat) (hn : n = 3 ∨ 5 ≤ n) (l : Nat → K) (c snr : K) (hsnr : 0 < snr)
    (h : ∀ i < n, l i = c) : ∃ m, detectStripe n l snr = .ok m ∧ ∀ i < n, m i = false := by
  have hz : ∀ q : Nat → Bool, (∀ i < n, q i = false) → (List.range n).countP q = 0 := by
    intro q hq
    rw [List.countP_eq_zero]
    intro i hi
    rw [hq i (List.mem_range.1 hi)]
    decide
  obtain ⟨m, e, hm⟩ := detect_outliers n hn l c snr hsnr (fun i hi => .inl (h i hi))
    (by rw [hz _ fun i hi => by simp [h i hi]]; omega)
    (by rw [hz _ fun i hi => by simp [h i hi]]; omega)
  refine ⟨m, e, fun i hi => ?_⟩
  have := hm i hi
  rw [h i hi] at this
  simpa using this

/-- Eight factors, the second too large and the last too small. -/
def factors8 : Nat → ℚ := fun i => if i = 1 then 3 / 2 else if i = 7 then 1 / 2 else 1

example : ∃ m, detectStripe 8 factors8 3 = .ok m ∧ ∀ i < 8, m i = true ↔ factors8 i ≠ 1 :=
  detect_outliers 8 (.inr (by decide)) factors8 1 3 (by norm_num)
    (by decide +kernel) (by decide +kernel) (by decide +kernel)

/-- **C81** With four columns the line is determined by one point, and flat data is marked when
`snr` is at most 1/3. -/
theorem detect_four (c snr : K) (hc : 0 < c) (h0 : snr ≤ 1 / 3) (h1 : 3 / 4 * c ≥ 1 / 1000000)
    : ∃ m, detectStripe 4 (fun _ => c) snr = .ok m ∧ ∀ i < 4, m i = true := by
  have hs : ∀ k < 4, sortedDesc 4 (fun _ => c) k = c := fun k hk => by
    obtain ⟨i, _, e⟩ := sortedDesc_mem 4 (fun _ => c) k hk
    exact e
  unfold detectStripe polyfit1
  simp only [hs 1 (by decide), hs 0 (by decide), hs 3 (by decide), Nat.reduceDiv, Nat.reduceSub,
    Nat.reduceLeDiff, if_false, Nat.reduceAdd, if_true, one_ne_zero, Nat.cast_one, Nat.cast_ofNat]
  refine ⟨_, rfl, fun i _ => ?_⟩
  have e1 : |c / 2 + c / (2 * 1) * 3 - c / 2| = 3 / 2 * c := by
    rw [abs_of_pos] <;> linarith [show c / (2 * 1) = c / 2 by norm_num]
  simp only [Bool.or_eq_true, Bool.and_eq_true, decide_eq_true_eq]
  rw [e1, max_eq_left (by linarith)]
  left
  have hp : 0 < 3 / 2 * c := by linarith
  refine ⟨?_, ?_⟩
  · rw [le_div_iff₀ hp, abs_of_pos (by linarith)]
    have := mul_le_mul_of_nonneg_right h0 hp.le
    linarith
  · have := mul_le_mul_of_nonneg_right h0 hp.le
    linarith

/-- **C81** One column raises TypeError, two raise LinAlgError (a ValueError). -/
theorem detect_short (l : Nat → K) (snr : K) :
    detectStripe 0 l snr = .error .type ∧ detectStripe 1 l snr = .error .type ∧
      detectStripe 2 l snr = .error .value := by
  refine ⟨?_, ?_, ?_⟩ <;> simp [detectStripe, polyfit1]

/-- **C81** With three or more columns the detection returns. -/
theorem detect_total (n : Nat) (hn : 3 ≤ n) (l : Nat → K) (snr : K) :
    ∃ m, detectStripe n l snr = .ok m := by
  unfold detectStripe
  dsimp only
  have : ∃ p, polyfit1 (n / 4) (n - n / 4 - 1) (sortedDesc n l) = .ok p := by
    unfold polyfit1
    rw [if_neg (by omega)]
    split
    · rw [if_neg (by omega)]; exact ⟨_, rfl⟩
    · exact ⟨_, rfl⟩
  obtain ⟨p, e⟩ := this
  rw [e]
  exact ⟨_, rfl⟩

/-- **C81** The order of the columns does not matter: if two lists have the same entries, then a
value is marked in one iff it is marked in the other. -/
theorem detect_order (n : Nat) (l l' : Nat → K) (snr : K)
    (hp : ((List.range n).map l).Perm ((List.range n).map l')) (m m' : Nat → Bool)
    (h : detectStripe n l snr = .ok m) (h' : detectStripe n l' snr = .ok m') (i j : Nat)
    (e : l i = l' j) : m i = m' j := by
  have hs : sortedDesc n l = sortedDesc n l' := by
    funext k; unfold sortedDesc; rw [sortL_perm hp]
  unfold detectStripe at h h'
  dsimp only at h h'
  rw [← hs] at h'
  split at h
  · exact absurd h (by simp)
  · rename_i s b hb
    rw [hb] at h'
    dsimp only at h'
    injection h with h
    injection h' with h'
    rw [← h, ← h']
    simp only [e]

end Tomopy.Stripe
