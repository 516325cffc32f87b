import Verif.Center.Entropy
import Verif.Sim.Noise
import Mathlib.Algebra.BigOperators.Group.Finset.Basic
import Mathlib.Algebra.Order.BigOperators.Group.Finset
import Mathlib.Analysis.SpecialFunctions.Pow.Real
import Mathlib.Tactic.Linarith
import Mathlib.Tactic.Ring
import Mathlib.Tactic.FieldSimp
import Mathlib.Tactic.Positivity
import Mathlib.Tactic.NormNum

/-! Theorems about `find_center`. -/

set_option linter.unusedSectionVars false

namespace Tomopy.Center

open Tomopy.Recon

theorem adjustHistMin_le (v : ℝ) : adjustHistMin v ≤ v := by
  unfold adjustHistMin; split_ifs with h
  · linarith
  · have := not_lt.1 h; linarith

theorem le_adjustHistMax (v : ℝ) : v ≤ adjustHistMax v := by
  unfold adjustHistMax; split_ifs with h
  · linarith
  · have := not_lt.1 h; linarith

/-- The histogram limits enclose every pixel of the first (masked) reconstruction, so they are in
order and `np.histogram` accepts them; there are none only for an empty image. -/
theorem hist_limits (rec : Arr3 ℝ) (mask : Bool) :
    (∃ lo hi, adjustHistLimits rec mask = .ok (lo, hi) ∧ lo ≤ hi ∧
      ∀ x ∈ Sim.elems (masked mask rec), lo ≤ x ∧ x ≤ hi) ∨
    (adjustHistLimits rec mask = .error .value ∧
      ((masked mask rec).d0 = 0 ∨ (masked mask rec).d1 = 0 ∨ (masked mask rec).d2 = 0)) := by
  set a := masked mask rec with ha
  set b : Arr3 ℝ := { a with get := fun i j k => -a.get i j k } with hb
  cases hm : Sim.maxElem b with
  | error e =>
    right
    obtain ⟨he, h0⟩ := Sim.maxElem_error hm
    refine ⟨?_, h0⟩
    simp only [adjustHistLimits, minElem, ← ha, ← hb, hm, he]; rfl
  | ok m =>
    cases hM : Sim.maxElem a with
    | error e =>
      right
      obtain ⟨he, h0⟩ := Sim.maxElem_error hM
      refine ⟨?_, h0⟩
      simp only [adjustHistLimits, minElem, ← ha, ← hb, hm, hM, he]; rfl
    | ok M =>
      left
      have h1 := Sim.maxElem_spec hm
      have h2 := Sim.maxElem_spec hM
      have hall : ∀ x ∈ Sim.elems a, adjustHistMin (-m) ≤ x ∧ x ≤ adjustHistMax M := by
        intro x hx
        obtain ⟨i, j, k, hi, hj, hk, rfl⟩ := Sim.mem_elems.1 hx
        have h3 := h1.2 i j k hi hj hk
        have h4 := h2.2 i j k hi hj hk
        have h5 : -a.get i j k ≤ m := h3
        exact ⟨(adjustHistMin_le _).trans (by linarith), h4.trans (le_adjustHistMax _)⟩
      refine ⟨adjustHistMin (-m), adjustHistMax M, ?_, ?_, hall⟩
      · simp only [adjustHistLimits, minElem, ← ha, ← hb, hm, hM]; rfl
      · obtain ⟨i, j, k, hi, hj, hk, hx⟩ := h2.1
        have := hall M (Sim.mem_elems.2 ⟨i, j, k, hi, hj, hk, hx⟩)
        exact this.1.trans this.2

theorem histRange_ok {lo hi : ℝ} (h : lo ≤ hi) :
    ∃ lo' hi', histRange lo hi = .ok (lo', hi') ∧ lo' < hi' ∧ lo' ≤ lo ∧ hi ≤ hi' := by
  unfold histRange
  rw [if_neg (not_lt.2 h)]
  split_ifs with he
  · exact ⟨_, _, rfl, by linarith, by linarith, by linarith⟩
  · exact ⟨_, _, rfl, lt_of_le_of_ne h he, le_rfl, le_rfl⟩

theorem histBin_lt {bins : Nat} (hb : 0 < bins) {lo hi x : ℝ} {b : Nat}
    (h : histBin bins lo hi x = some b) : b < bins := by
  unfold histBin at h
  split_ifs at h
  injection h with h
  omega

theorem histBin_none {bins : Nat} {lo hi x : ℝ} : histBin bins lo hi x = none ↔ x < lo ∨ hi < x := by
  unfold histBin
  split_ifs with h
  · simp only [false_iff, not_or, not_lt]; exact h
  · simp only [true_iff]
    by_contra hc
    push Not at hc
    exact h ⟨hc.1, hc.2⟩

theorem sum_indicator (n b : Nat) (hb : b < n) :
    ((List.range n).map fun i => if b = i then 1 else 0).sum = 1 := by
  induction n with
  | zero => omega
  | succ n ih =>
    rw [List.range_succ, List.map_append, List.sum_append]
    by_cases h : b = n
    · subst h
      have : ((List.range b).map fun i => if b = i then 1 else 0) = (List.range b).map fun _ => 0 := by
        apply List.map_congr_left
        intro i hi
        rw [if_neg (by have := List.mem_range.1 hi; omega)]
      rw [this]; simp
    · rw [ih (by omega)]; simp [h]

/-- Every pixel inside the range is counted once, every other pixel not at all. -/
theorem counts_sum {bins : Nat} (hb : 0 < bins) (lo hi : ℝ) (xs : List ℝ) :
    (counts bins lo hi xs).sum = xs.countP fun x => decide (lo ≤ x ∧ x ≤ hi) := by
  induction xs with
  | nil => simp [counts]
  | cons x xs ih =>
    have hstep : (counts bins lo hi (x :: xs)).sum = (counts bins lo hi xs).sum +
        ((List.range bins).map fun b => if histBin bins lo hi x = some b then 1 else 0).sum := by
      unfold counts
      rw [← List.sum_map_add]
      congr 1
      apply List.map_congr_left
      intro b _
      rw [List.countP_cons]
      simp
    rw [hstep, ih, List.countP_cons]
    congr 1
    cases hx : histBin bins lo hi x with
    | none =>
      have := histBin_none.1 hx
      rw [if_neg (by simp only [decide_eq_true_eq]; rintro ⟨h1, h2⟩; rcases this with h | h <;> linarith)]
      simp
    | some b =>
      have hin : lo ≤ x ∧ x ≤ hi := by
        by_contra hc
        have : histBin bins lo hi x = none := if_neg hc
        rw [this] at hx; cases hx
      rw [if_pos (by simpa using hin)]
      simpa using sum_indicator bins b (histBin_lt hb hx)

/-- The cost depends on the values of the pixels only, not on their places. -/
theorem cost_perm {xs ys : List ℝ} (h : xs.Perm ys) (hmin hmax : ℝ) :
    entropyCost xs hmin hmax = entropyCost ys hmin hmax := by
  unfold entropyCost
  cases histRange hmin hmax with
  | error e => rfl
  | ok r =>
    obtain ⟨lo, hi⟩ := r
    simp only [bind, Except.bind]
    have : counts 64 lo hi xs = counts 64 lo hi ys := by
      unfold counts
      apply List.map_congr_left
      intro b _
      exact h.countP_eq _
    rw [this, h.length_eq]

/-- One term of the entropy. -/
noncomputable def term (h : ℝ) : ℝ := -(h * Real.logb 2 h)

theorem entropyOf_eq (size : Nat) (hist : List Nat) :
    entropyOf size hist = (hist.map fun n : Nat => term ((n : ℝ) / size + 1 / 10 ^ 12)).sum := by
  unfold entropyOf term
  induction hist with
  | nil => simp
  | cons a l ih => simp only [List.map_cons, List.sum_cons, neg_add] at ih ⊢; rw [ih]

theorem log_two_pos : 0 < Real.log 2 := Real.log_pos (by norm_num)

theorem term_nonneg {h : ℝ} (h0 : 0 < h) (h1 : h ≤ 1) : 0 ≤ term h := by
  unfold term Real.logb
  have : Real.log h ≤ 0 := Real.log_nonpos h0.le h1
  have h2 : Real.log h / Real.log 2 ≤ 0 := div_nonpos_of_nonpos_of_nonneg this log_two_pos.le
  nlinarith

/-- Tangent at 1/64: the bound of a term that gives the greatest entropy. -/
theorem term_le {h : ℝ} (h0 : 0 < h) : term h ≤ 6 * h + (1 / 64 - h) / Real.log 2 := by
  have key : h * Real.log (1 / 64 / h) ≤ 1 / 64 - h := by
    have := Real.log_le_sub_one_of_pos (show 0 < 1 / 64 / h by positivity)
    have h2 : h * Real.log (1 / 64 / h) ≤ h * (1 / 64 / h - 1) := mul_le_mul_of_nonneg_left this h0.le
    have h3 : h * (1 / 64 / h - 1) = 1 / 64 - h := by field_simp
    linarith
  have h64 : Real.log (1 / 64) = -(6 * Real.log 2) := by
    rw [show (1 / 64 : ℝ) = (2 ^ 6)⁻¹ by norm_num, Real.log_inv, Real.log_pow]; norm_num
  rw [Real.log_div (by norm_num) h0.ne', h64] at key
  have hl := log_two_pos
  unfold term Real.logb
  have e : -(h * (Real.log h / Real.log 2)) = (h * (-(6 * Real.log 2) - Real.log h)) / Real.log 2 + 6 * h := by
    field_simp; ring
  rw [e]
  have : (h * (-(6 * Real.log 2) - Real.log h)) / Real.log 2 ≤ (1 / 64 - h) / Real.log 2 :=
    div_le_div_of_nonneg_right key hl.le
  linarith

theorem sum_terms_le (n : Nat) (size : Nat) (hist : List Nat) (hn : hist.length = n) :
    entropyOf size hist ≤ 6 * ((hist.sum : ℝ) / size + n / 10 ^ 12)
      + ((n : ℝ) / 64 - ((hist.sum : ℝ) / size + n / 10 ^ 12)) / Real.log 2 := by
  rw [entropyOf_eq]
  induction hist generalizing n with
  | nil => subst hn; simp
  | cons a l ih =>
    subst hn
    have := ih l.length rfl
    have h0 : (0 : ℝ) < (a : ℝ) / size + 1 / 10 ^ 12 := by positivity
    have ht := term_le h0
    simp only [List.map_cons, List.sum_cons, List.length_cons]
    rw [Nat.cast_add, Nat.cast_add, Nat.cast_one]
    have e : 6 * (((a : ℝ) + (l.sum : ℝ)) / size + ((l.length : ℝ) + 1) / 10 ^ 12)
        + (((l.length : ℝ) + 1) / 64 - (((a : ℝ) + (l.sum : ℝ)) / size + ((l.length : ℝ) + 1) / 10 ^ 12))
          / Real.log 2 =
        (6 * ((a : ℝ) / size + 1 / 10 ^ 12) + (1 / 64 - ((a : ℝ) / size + 1 / 10 ^ 12)) / Real.log 2)
        + (6 * ((l.sum : ℝ) / size + (l.length : ℝ) / 10 ^ 12)
          + ((l.length : ℝ) / 64 - ((l.sum : ℝ) / size + (l.length : ℝ) / 10 ^ 12)) / Real.log 2) := by
      ring
    rw [e]
    linarith

theorem one_le_inv_log_two : 1 ≤ 1 / Real.log 2 := by
  rw [le_div_iff₀ log_two_pos]
  have := Real.log_le_sub_one_of_pos (show (0 : ℝ) < 2 by norm_num)
  linarith

/-- The cost of an image: at most six bits (64 bins) up to `4e-10`. -/
theorem cost_le {xs : List ℝ} (hne : xs ≠ []) {hmin hmax : ℝ} (h : hmin ≤ hmax) :
    ∃ v, entropyCost xs hmin hmax = .ok v ∧ v ≤ 6 + 4 / 10 ^ 10 := by
  obtain ⟨lo, hi, hr, -, -, -⟩ := histRange_ok h
  refine ⟨entropyOf xs.length (counts 64 lo hi xs), by simp only [entropyCost, hr]; rfl, ?_⟩
  have hlen : (counts 64 lo hi xs).length = 64 := by simp [counts]
  refine (sum_terms_le 64 xs.length _ hlen).trans ?_
  have hs := counts_sum (bins := 64) (by norm_num) lo hi xs
  have hle : (counts 64 lo hi xs).sum ≤ xs.length := by rw [hs]; exact List.countP_le_length
  have hpos : (0 : ℝ) < xs.length := by
    have : 0 < xs.length := List.length_pos_iff.2 hne
    exact_mod_cast this
  set s : ℝ := ((counts 64 lo hi xs).sum : ℝ) / xs.length with hsdef
  have hs1 : s ≤ 1 := by rw [hsdef, div_le_one hpos]; exact_mod_cast hle
  have hinv := one_le_inv_log_two
  have hL := log_two_pos
  push_cast
  have e : (64 / 64 - (s + 64 / 10 ^ 12)) / Real.log 2 = (1 - s - 64 / 10 ^ 12) * (1 / Real.log 2) := by
    ring
  rw [e]
  have h5 : 1 / Real.log 2 ≤ 6 := by
    rw [div_le_iff₀ hL]
    have := Real.one_sub_inv_le_log_of_pos (show (0 : ℝ) < 2 by norm_num)
    linarith
  set q := 1 / Real.log 2
  nlinarith

/-- An image with all pixels in one bin has the cost of certainty: at most `3e-9` bits. -/
theorem logb_eps : -40 ≤ Real.logb 2 (1 / 10 ^ 12) := by
  have h : Real.logb 2 (1 / 10 ^ 12) = -(12 * Real.logb 2 10) := by
    rw [one_div, Real.logb_inv, Real.logb_pow]; norm_num
  have h2 : Real.logb 2 10 ≤ 10 / 3 := by
    rw [Real.logb_le_iff_le_rpow (by norm_num) (by norm_num)]
    have : ((10 : ℝ)) ^ (3 : ℕ) ≤ ((2 : ℝ) ^ ((10 / 3 : ℝ))) ^ (3 : ℕ) := by
      rw [← Real.rpow_natCast ((2 : ℝ) ^ ((10 / 3 : ℝ))), ← Real.rpow_mul (by norm_num),
        show (10 / 3 : ℝ) * ((3 : ℕ) : ℝ) = ((10 : ℕ) : ℝ) by norm_num, Real.rpow_natCast]
      norm_num
    exact le_of_pow_le_pow_left₀ (by norm_num) (by positivity) this
  rw [h]; linarith

/-- REFUTED: pixels outside of the limits count.  An image all of whose pixels are outside has
nearly the smallest possible cost, below `3e-9`, whatever its pixels are. -/
theorem cost_outside {xs : List ℝ} {hmin hmax lo hi : ℝ}
    (hr : histRange hmin hmax = .ok (lo, hi)) (hout : ∀ x ∈ xs, x < lo ∨ hi < x) :
    ∃ v, entropyCost xs hmin hmax = .ok v ∧ v < 3 / 10 ^ 9 := by
  refine ⟨entropyOf xs.length (counts 64 lo hi xs), by simp only [entropyCost, hr]; rfl, ?_⟩
  have h0 : counts 64 lo hi xs = List.replicate 64 0 := by
    unfold counts
    have : ((List.range 64).map fun b => xs.countP fun x => decide (histBin 64 lo hi x = some b))
        = (List.range 64).map fun _ => 0 := by
      apply List.map_congr_left
      intro b _
      rw [List.countP_eq_zero]
      intro x hx
      rw [histBin_none.2 (hout x hx)]; simp
    rw [this]; simp
  rw [entropyOf_eq, h0, List.map_replicate, List.sum_replicate]
  have hl := logb_eps
  simp only [Nat.cast_zero, zero_div, zero_add, nsmul_eq_mul, term]
  norm_num at hl ⊢
  linarith

/-- The cost never is below zero by more than `3e-12`. -/
theorem term_ge {h : ℝ} (h0 : 0 < h) (h1 : h ≤ 1 + 1 / 10 ^ 12) : -(3 / 10 ^ 12) ≤ term h := by
  by_cases hc : h ≤ 1
  · have := term_nonneg h0 hc
    have : (0 : ℝ) ≤ 3 / 10 ^ 12 := by positivity
    linarith
  · unfold term Real.logb
    have hlog : Real.log h ≤ h - 1 := Real.log_le_sub_one_of_pos h0
    have hL : 1 / 2 ≤ Real.log 2 := by
      have := Real.one_sub_inv_le_log_of_pos (show (0 : ℝ) < 2 by norm_num)
      linarith
    have hlp := log_two_pos
    have : Real.log h / Real.log 2 ≤ 2 * (h - 1) := by
      rw [div_le_iff₀ hlp]; nlinarith
    nlinarith

theorem sum_ge_of_forall (l : List ℝ) (c : ℝ) (h : ∀ x ∈ l, c ≤ x) : l.length * c ≤ l.sum := by
  induction l with
  | nil => simp
  | cons a l ih =>
    have h1 := h a (by simp)
    have h2 := ih fun x hx => h x (List.mem_cons_of_mem _ hx)
    simp only [List.length_cons, List.sum_cons]
    push_cast
    linarith

/-- The cost is not negative (up to `2e-10`), so a constant image is nearly optimal. -/
theorem cost_ge {xs : List ℝ} (hne : xs ≠ []) {hmin hmax : ℝ} (h : hmin ≤ hmax) :
    ∃ v, entropyCost xs hmin hmax = .ok v ∧ -(2 / 10 ^ 10) ≤ v := by
  obtain ⟨lo, hi, hr, -, -, -⟩ := histRange_ok h
  refine ⟨entropyOf xs.length (counts 64 lo hi xs), by simp only [entropyCost, hr]; rfl, ?_⟩
  rw [entropyOf_eq]
  have hpos : (0 : ℝ) < xs.length := by
    have : 0 < xs.length := List.length_pos_iff.2 hne
    exact_mod_cast this
  have key := sum_ge_of_forall ((counts 64 lo hi xs).map fun n : Nat =>
    term ((n : ℝ) / xs.length + 1 / 10 ^ 12)) (-(3 / 10 ^ 12)) (by
      intro x hx
      obtain ⟨n, hn, rfl⟩ := List.mem_map.1 hx
      obtain ⟨b, _, rfl⟩ := List.mem_map.1 hn
      apply term_ge (by positivity)
      have : ((xs.countP fun x => decide (histBin 64 lo hi x = some b) : Nat) : ℝ) / xs.length ≤ 1 := by
        rw [div_le_one hpos]; exact_mod_cast List.countP_le_length
      linarith)
  have hlen : ((counts 64 lo hi xs).map fun n : Nat =>
      term ((n : ℝ) / xs.length + 1 / 10 ^ 12)).length = 64 := by simp [counts]
  rw [hlen] at key
  refine le_trans ?_ key
  norm_num

/-- An image inside the limits whose pixels take two values equally often, in different bins, has
the cost one bit, as entropy should be. -/
theorem cost_two {x y : ℝ} {m : Nat} (hm : 0 < m) {hmin hmax lo hi : ℝ}
    (hr : histRange hmin hmax = .ok (lo, hi)) {a b : Nat} (hab : a ≠ b)
    (hx : histBin 64 lo hi x = some a) (hy : histBin 64 lo hi y = some b) :
    ∃ v, entropyCost (List.replicate m x ++ List.replicate m y) hmin hmax = .ok v ∧
      1 - 1 / 10 ^ 11 ≤ v := by
  set xs := List.replicate m x ++ List.replicate m y with hxs
  refine ⟨entropyOf xs.length (counts 64 lo hi xs), by simp only [entropyCost, hr]; rfl, ?_⟩
  have hlen : xs.length = m + m := by simp [hxs]
  have hm' : (0 : ℝ) < m := by exact_mod_cast hm
  rw [entropyOf_eq, counts, List.map_map]
  set g : Nat → ℝ := (fun n : Nat => term ((n : ℝ) / xs.length + 1 / 10 ^ 12)) ∘ fun b =>
    xs.countP fun x => decide (histBin 64 lo hi x = some b) with hg
  have hsum : ((List.range 64).map g).sum = ∑ i ∈ Finset.range 64, g i := rfl
  rw [hsum]
  have hcount : ∀ i, (xs.countP fun z => decide (histBin 64 lo hi z = some i))
      = (if a = i then m else 0) + (if b = i then m else 0) := by
    intro i
    rw [hxs, List.countP_append, List.countP_replicate, List.countP_replicate]
    simp [hx, hy]
  have hnonneg : ∀ i ∈ Finset.range 64, 0 ≤ g i := by
    intro i _
    simp only [hg, Function.comp, hcount, hlen]
    apply term_nonneg (by positivity)
    push_cast
    by_cases h1 : a = i
    · have h2 : b ≠ i := fun h => hab (h1.trans h.symm)
      simp only [h1, h2, if_true, if_false, add_zero]
      have : (m : ℝ) / (m + m) = 1 / 2 := by field_simp; norm_num
      rw [this]; norm_num
    · by_cases h2 : b = i
      · simp only [h1, h2, if_true, if_false, zero_add]
        have : (m : ℝ) / (m + m) = 1 / 2 := by field_simp; norm_num
        rw [this]; norm_num
      · simp only [h1, h2, if_false, add_zero, zero_div, zero_add]; norm_num
  have hsub : ({a, b} : Finset Nat) ⊆ Finset.range 64 := by
    intro i hi'
    rw [Finset.mem_insert, Finset.mem_singleton] at hi'
    rcases hi' with rfl | rfl
    · exact Finset.mem_range.2 (histBin_lt (by norm_num) hx)
    · exact Finset.mem_range.2 (histBin_lt (by norm_num) hy)
  have hle := Finset.sum_le_sum_of_subset_of_nonneg hsub fun i hi' _ => hnonneg i hi'
  rw [Finset.sum_pair hab] at hle
  have hhalf : 1 / 2 - 2 / 10 ^ 12 ≤ term (1 / 2 + 1 / 10 ^ 12) := by
    have h1 : Real.log (1 / 2 + 1 / 10 ^ 12) ≤ -Real.log 2 + 2 / 10 ^ 12 := by
      have e : (1 / 2 + 1 / 10 ^ 12 : ℝ) = 2⁻¹ * (1 + 2 / 10 ^ 12) := by norm_num
      rw [e, Real.log_mul (by norm_num) (by norm_num), Real.log_inv]
      have := Real.log_le_sub_one_of_pos (show (0 : ℝ) < 1 + 2 / 10 ^ 12 by norm_num)
      linarith
    have hL : 1 / 2 ≤ Real.log 2 := by
      have := Real.one_sub_inv_le_log_of_pos (show (0 : ℝ) < 2 by norm_num)
      linarith
    have hlp := log_two_pos
    have h2 : Real.log (1 / 2 + 1 / 10 ^ 12) / Real.log 2 ≤ -1 + 4 / 10 ^ 12 := by
      rw [div_le_iff₀ hlp]; nlinarith
    unfold term Real.logb
    nlinarith
  have ga : g a = term (1 / 2 + 1 / 10 ^ 12) := by
    simp only [hg, Function.comp, hcount, hlen, if_true, if_neg hab.symm, add_zero]
    push_cast
    congr 2
    field_simp; norm_num
  have gb : g b = term (1 / 2 + 1 / 10 ^ 12) := by
    simp only [hg, Function.comp, hcount, hlen, if_true, if_neg hab, zero_add]
    push_cast
    congr 2
    field_simp; norm_num
  rw [ga, gb] at hle
  refine le_trans ?_ hle
  have : (1 : ℝ) - 1 / 10 ^ 11 ≤ 2 * (1 / 2 - 2 / 10 ^ 12) := by norm_num
  linarith

/-- REFUTED: the cost is the entropy of the image.  An image with two equally frequent values has
entropy one bit; if both values leave the limits, which were set by another reconstruction, its
cost is below that of a constant image plus `4e-9`, and the search prefers it. -/
theorem outside_wins {x y x' y' : ℝ} {m : Nat} (hm : 0 < m) {hmin hmax lo hi : ℝ}
    (hr : histRange hmin hmax = .ok (lo, hi)) {a b : Nat} (hab : a ≠ b)
    (hx : histBin 64 lo hi x = some a) (hy : histBin 64 lo hi y = some b)
    (hx' : hi < x') (hy' : hi < y') :
    ∃ v w, entropyCost (List.replicate m x ++ List.replicate m y) hmin hmax = .ok v ∧
      entropyCost (List.replicate m x' ++ List.replicate m y') hmin hmax = .ok w ∧
      w + 1 / 2 < v := by
  obtain ⟨v, hv, h1⟩ := cost_two hm hr hab hx hy
  obtain ⟨w, hw, h2⟩ := cost_outside (xs := List.replicate m x' ++ List.replicate m y') hr (by
    intro z hz
    rw [List.mem_append] at hz
    rcases hz with h | h
    · right; rw [List.eq_of_mem_replicate h]; exact hx'
    · right; rw [List.eq_of_mem_replicate h]; exact hy')
  refine ⟨v, w, hv, hw, ?_⟩
  have : (3 : ℝ) / 10 ^ 9 + 1 / 2 < 1 - 1 / 10 ^ 11 := by norm_num
  linarith

/-- The hypotheses of `outside_wins` are met: limits 0 and 64, pixels 0 and 1 inside, 100 and 200
outside. -/
example : ∃ v w, entropyCost (List.replicate 3 0 ++ List.replicate 3 1) 0 64 = .ok v ∧
    entropyCost (List.replicate 3 100 ++ List.replicate 3 200) 0 64 = .ok w ∧ w + 1 / 2 < v := by
  refine outside_wins (a := 0) (b := 1) (by norm_num) (lo := 0) (hi := 64) ?_ (by norm_num) ?_ ?_
    (by norm_num) (by norm_num)
  · unfold histRange; norm_num
  · unfold histBin; norm_num
  · unfold histBin; norm_num

/-- REFUTED: `ratio` sets the radius of the mask.  It has no effect on the cost, nor on the
result. -/
theorem ratio_ignored (minimize : (ℝ → Except PyErr ℝ) → ℝ → Except PyErr ℝ) {S : Type} (dx : Nat)
    (tomo : List S) (rec : S → ℝ → Arr3 ℝ) (ind : Option Int) (init : Option ℝ) (mask : Bool)
    (r r' : ℝ) :
    findCenter minimize dx tomo rec ind init mask r
      = findCenter minimize dx tomo rec ind init mask r' := rfl

/-- `find_center` uses one slice, the one asked for (the middle one by default), and the optimizer
starts at the guess given (the middle column by default). -/
theorem find_center_slice (minimize : (ℝ → Except PyErr ℝ) → ℝ → Except PyErr ℝ) {S : Type}
    (dx : Nat) (tomo : List S) (rec : S → ℝ → Arr3 ℝ) (ind : Option Nat) (init : Option ℝ)
    (mask : Bool) (ratio : ℝ) (s : S) (hs : tomo[ind.getD (tomo.length / 2)]? = some s) :
    findCenter minimize dx tomo rec (ind.map fun i : Nat => (i : Int)) init mask ratio =
      (adjustHistLimits (rec s ((dx : ℝ) / 2)) mask).bind fun l =>
        minimize (findCenterCost (rec s) l.1 l.2 mask ratio) (init.getD (dx / 2 : Nat)) := by
  obtain ⟨hlt, hget⟩ := List.getElem?_eq_some_iff.1 hs
  have hind : (ind.map fun i : Nat => (i : Int)).getD ((tomo.length / 2 : Nat) : Int)
      = ((ind.getD (tomo.length / 2) : Nat) : Int) := by cases ind <;> rfl
  set n := ind.getD (tomo.length / 2) with hn
  have hsl : pySlice tomo (some (n : Int)) (some ((n : Int) + 1)) = [s] := by
    have h1 : pyIdx tomo.length 0 (some (n : Int)) = n := by
      simp only [pyIdx, pyBound]; omega
    have h2 : pyIdx tomo.length tomo.length (some ((n : Int) + 1)) = n + 1 := by
      simp only [pyIdx, pyBound]; omega
    unfold pySlice
    rw [h1, h2]
    apply List.ext_getElem?
    intro i
    rcases i with _ | i
    · simp [hlt]; exact hget
    · simp
  simp only [findCenter, hind, hsl]
  rfl

/-- REFUTED: negative indices count from the end.  The last slice by `ind=-1` is an empty
selection and raises. -/
theorem find_center_last_raises (minimize : (ℝ → Except PyErr ℝ) → ℝ → Except PyErr ℝ) {S : Type}
    (dx : Nat) (tomo : List S) (rec : S → ℝ → Arr3 ℝ) (init : Option ℝ) (mask : Bool) (ratio : ℝ) :
    findCenter minimize dx tomo rec (some (-1)) init mask ratio = .error .value := by
  have hsl : pySlice tomo (some (-1 : Int)) (some (-1 + 1 : Int)) = [] := by
    unfold pySlice
    have : pyIdx tomo.length tomo.length (some (-1 + 1 : Int)) = 0 := by
      simp [pyIdx, pyBound]
    rw [this]; simp
  unfold findCenter
  simp only [Option.getD_some]
  rw [hsl]

end Tomopy.Center
