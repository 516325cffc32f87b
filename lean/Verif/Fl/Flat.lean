import Verif.Fl.FlatModel
import Verif.Fl.Bin
import Verif.Stripe.Sf

/-!
# Flat data in `float` arithmetic

Both `remove_stripe_sf` and `normalize_bg` add up `n` pixels and divide by `n`.  In exact arithmetic the mean of
equal numbers is that number.
-/

set_option linter.unusedSectionVars false

namespace Tomopy.Fl

open Function (update)
open Tomopy.Stripe (SfArgs sfPixels sfClamp mem_sfPixels nodup_sfPixels)

/-! ## Specification -/

/-- `n` equal numbers added up from the left and divided by `n`, in `float`. -/
def copyMean (n : Nat) (x : F32) : F32 :=
  F32.div ((List.replicate n x).foldl F32.add (.fin 0)) (F32.round n)

/-- Values away from overflow and underflow. -/
def Mid (x : ℚ) : Prop := fl x = x ∧ 1 / 2 ^ 60 ≤ |x| ∧ |x| ≤ 2 ^ 60

/-- Slice `s` holds `x` everywhere. -/
def FlatSlice (d : SfArgs) (m : Nat → F32) (s : Nat) (x : F32) : Prop :=
  ∀ p < d.dx, ∀ j < d.dz, m (sfAt d p s j) = x

/-! ## The mean of equal numbers -/

theorem round_nat {n : Nat} (hn : n ≤ 2 ^ 24) : F32.round (n : ℚ) = .fin n := by
  have hq : (n : ℚ) ≤ 2 ^ 24 := by exact_mod_cast hn
  rw [round_fin (by rw [abs_of_nonneg (by positivity)]; exact le_trans hq (by norm_num))]
  congr 1
  have := fl_int (m := (n : ℤ)) (by rw [abs_of_nonneg (by omega)]; exact_mod_cast hn)
  exact_mod_cast this

theorem copies_runs {x : ℚ} (n : Nat) (hf : ∀ k < n, |runs x k + x| ≤ 2 ^ 126) :
    (List.replicate n (F32.fin x)).foldl F32.add (.fin 0) = .fin (runs x n) := by
  induction n with
  | zero => rfl
  | succ n ih =>
    rw [List.replicate_succ', List.foldl_append, ih fun k hk => hf k (by omega), runs_succ]
    exact round_fin (hf n (by omega))

theorem runs_neg (y : ℚ) (k : Nat) : runs (-y) k = -runs y k := by
  induction k with
  | zero => simp [runs]
  | succ k ih => rw [runs_succ, runs_succ, ih, ← neg_add, fl_neg]

theorem abs_runs (y : ℚ) (k : Nat) : |runs y k| = runs |y| k := by
  rcases abs_cases y with ⟨e, h⟩ | ⟨e, h⟩
  · rw [e, abs_of_nonneg (runs_nonneg h k)]
  · rw [e, runs_neg, abs_of_nonpos]
    have := runs_nonneg (y := -y) (by linarith) k
    rw [runs_neg] at this
    linarith

/-- A sum of `k` numbers below a power of two. -/
theorem runs_bound {y : ℚ} {b : ℤ} (hb : -149 ≤ b) (hy : y ≤ 2 ^ b) (k : Nat) (hk : k ≤ 2 ^ 24) :
    runs y k ≤ k * 2 ^ b := by
  induction k with
  | zero => simp [runs]
  | succ k ih =>
    have h1 := ih (by omega)
    have h2 : fl ((k + 1 : ℚ) * 2 ^ b) = (k + 1 : ℚ) * 2 ^ b :=
      fl_exact (k + 1 : ℤ) b (by rw [abs_of_nonneg (by omega)]; exact_mod_cast hk) hb (by push_cast; rfl)
    rw [runs_succ]
    push_cast
    rw [← h2]
    refine fl_mono ?_
    rw [add_mul]
    linarith

theorem runs_fin {x : ℚ} (hx : |x| ≤ 2 ^ 100) (n : Nat) (hn : n ≤ 2 ^ 24) : ∀ k < n, |runs x k + x| ≤ 2 ^ 126 := by
  intro k hk
  have e : (2 : ℚ) ^ (100 : ℤ) = 2 ^ 100 := by norm_cast
  have h1 := runs_bound (y := |x|) (b := 100) (by norm_num) (by rw [e]; exact hx) k (by omega)
  have hkq : (k : ℚ) ≤ 2 ^ 24 := by exact_mod_cast (by omega : k ≤ 2 ^ 24)
  have h2 := abs_add_le (runs x k) x
  rw [abs_runs] at h2
  rw [e] at h1
  have h3 : (k : ℚ) * 2 ^ 100 ≤ 2 ^ 24 * 2 ^ 100 := mul_le_mul_of_nonneg_right hkq (by norm_num)
  have h4 : (2 : ℚ) ^ 24 * 2 ^ 100 + 2 ^ 100 ≤ 2 ^ 126 := by norm_num
  linarith

/-- The mean of `n` copies, without overflow. -/
theorem copyMean_val {x : ℚ} (hx : |x| ≤ 2 ^ 100) {n : Nat} (h1 : 1 ≤ n) (hn : n ≤ 2 ^ 24) :
    copyMean n (.fin x) = .fin (fl (runs x n / n)) := by
  unfold copyMean
  rw [copies_runs n (runs_fin hx n hn), round_nat hn]
  have hnq : (1 : ℚ) ≤ n := by exact_mod_cast h1
  have e : (2 : ℚ) ^ (100 : ℤ) = 2 ^ 100 := by norm_cast
  have hb := runs_bound (y := |x|) (b := 100) (by norm_num) (by rw [e]; exact hx) n hn
  rw [e] at hb
  show (if (n : ℚ) = 0 then _ else F32.round (runs x n / n)) = _
  rw [if_neg (by linarith)]
  refine round_fin ?_
  rw [abs_div, abs_runs, abs_of_pos (by linarith : (0 : ℚ) < n), div_le_iff₀ (by linarith)]
  refine le_trans hb ?_
  rw [mul_comm]
  exact mul_le_mul_of_nonneg_right (by norm_num) (by linarith)

theorem Mid.le {x : ℚ} (h : Mid x) : |x| ≤ 2 ^ 100 := le_trans h.2.2 (by norm_num)

theorem Mid.normal {x : ℚ} (h : Mid x) : Normal x := Or.inr (le_trans (by norm_num) h.2.1)

/-- **Means of 1, 2 and 4 equal numbers are exact.** -/
theorem copyMean_small {n : Nat} (hn : n = 1 ∨ n = 2 ∨ n = 4) {x : ℚ} (hx : fl x = x) (hN : Normal x)
    (hb : |x| ≤ 2 ^ 100) : copyMean n (.fin x) = .fin x := by
  rw [copyMean_val hb (by omega) (by omega)]
  have r1 : runs x 1 = x := by rw [runs_succ]; simp [runs, hx]
  have r2 : runs x 2 = 2 * x := by rw [runs_succ, r1, ← two_mul, fl_double hx]
  have r4 : runs x 4 = 4 * x := by
    rw [runs_succ, runs_succ, r2, show 2 * x + x = 3 * x by ring, quad hx hN]
  rcases hn with rfl | rfl | rfl
  · rw [r1]; simp [hx]
  · rw [r2]; push_cast; rw [mul_div_cancel_left₀ _ (by norm_num), hx]
  · rw [r4]; push_cast; rw [mul_div_cancel_left₀ _ (by norm_num), hx]

/-- A number whose mean of `n` copies is another number (`n` not 1, 2 or 4). -/
def spoiled (n : Nat) : ℚ :=
  if n = 3 then 11184814 else if n = 5 then 13421775 else if n ≤ 9 then 11184814 else 8388611

/-- The mean of `n` copies of it. -/
def spoiledMean (n : Nat) : ℚ := fl (runs (spoiled n) n / n)

theorem spoiled_mean_large {n : Nat} (h : 32 ≤ n) (hn : n ≤ 2 ^ 23) : fl (runs 8388611 n / n) = 8388609 := by
  have hj := Nat.pow_log_le_self 2 (show n ≠ 0 by omega)
  have hj2 := Nat.lt_pow_succ_log_self (b := 2) (by norm_num) n
  have h5 : 5 ≤ Nat.log 2 n := Nat.le_log_of_pow_le (by norm_num) (by omega)
  generalize Nat.log 2 n = j at *
  rw [runs_val n j hj hj2 h5 hn]
  have hp : (0 : ℚ) < n := by exact_mod_cast (by omega : 0 < n)
  have a1 : (2 : ℚ) ^ j ≤ n := by exact_mod_cast hj
  have a2 : (n : ℚ) < 2 * 2 ^ j := by
    have : n < 2 * 2 ^ j := by rw [pow_succ] at hj2; omega
    exact_mod_cast this
  have e : ((n : ℚ) * 2 ^ 23 + 2 ^ j) / n = 2 ^ 23 + 2 ^ j / n := by field_simp
  have b1 : (2 : ℚ) ^ j / n ≤ 1 := by rw [div_le_one hp]; exact a1
  have b2 : (1 : ℚ) / 2 < 2 ^ j / n := by rw [div_lt_div_iff₀ (by norm_num) hp]; linarith
  rw [e]
  generalize (2 : ℚ) ^ j / n = t at *
  rw [fl_at (n := 8388609) (j := 0) (by norm_num)]
  · norm_num
  · rw [abs_of_pos (by linarith)]; norm_num; linarith
  · rw [abs_of_pos (by linarith)]; norm_num; linarith
  · left; rw [abs_lt]; norm_num; constructor <;> linarith

/-- What the witness looks like for every number of copies. -/
theorem spoiled_spec {n : Nat} (h1 : 1 ≤ n) (hn : n ≤ 2 ^ 23) (h : ¬ (n = 1 ∨ n = 2 ∨ n = 4)) :
    ∃ x c : ℤ, spoiled n = x ∧ spoiledMean n = c ∧ 2 ^ 23 ≤ x ∧ x < 2 ^ 24 ∧ 2 ^ 23 ≤ c ∧ c < 2 ^ 24 ∧
      (c = x - 1 ∨ c = x - 2 ∨ c = x + 1) := by
  by_cases h32 : 32 ≤ n
  · refine ⟨8388611, 8388609, ?_, ?_, by norm_num⟩
    · unfold spoiled
      rw [if_neg (by omega), if_neg (by omega), if_neg (by omega)]; norm_num
    · unfold spoiledMean spoiled
      rw [if_neg (by omega), if_neg (by omega), if_neg (by omega), spoiled_mean_large h32 hn]; norm_num
  · have key : ∀ n < 32, 1 ≤ n → ¬ (n = 1 ∨ n = 2 ∨ n = 4) →
        (spoiled n = 11184814 ∨ spoiled n = 13421775 ∨ spoiled n = 8388611) ∧
        (spoiledMean n = spoiled n - 1 ∨ spoiledMean n = spoiled n - 2 ∨ spoiledMean n = spoiled n + 1) := by
      decide +kernel
    obtain ⟨k1, k2⟩ := key n (by omega) h1 h
    rcases k1 with e | e | e <;> rw [e] at k2 <;> rcases k2 with f | f | f
    · exact ⟨11184814, 11184813, by rw [e]; norm_num, by rw [f]; norm_num, by norm_num⟩
    · exact ⟨11184814, 11184812, by rw [e]; norm_num, by rw [f]; norm_num, by norm_num⟩
    · exact ⟨11184814, 11184815, by rw [e]; norm_num, by rw [f]; norm_num, by norm_num⟩
    · exact ⟨13421775, 13421774, by rw [e]; norm_num, by rw [f]; norm_num, by norm_num⟩
    · exact ⟨13421775, 13421773, by rw [e]; norm_num, by rw [f]; norm_num, by norm_num⟩
    · exact ⟨13421775, 13421776, by rw [e]; norm_num, by rw [f]; norm_num, by norm_num⟩
    · exact ⟨8388611, 8388610, by rw [e]; norm_num, by rw [f]; norm_num, by norm_num⟩
    · exact ⟨8388611, 8388609, by rw [e]; norm_num, by rw [f]; norm_num, by norm_num⟩
    · exact ⟨8388611, 8388612, by rw [e]; norm_num, by rw [f]; norm_num, by norm_num⟩

theorem mid_int {x : ℤ} (h1 : 2 ^ 23 ≤ x) (h2 : x < 2 ^ 24) : Mid (x : ℚ) := by
  have a : (2 : ℚ) ^ 23 ≤ x := by exact_mod_cast h1
  have b : (x : ℚ) < 2 ^ 24 := by exact_mod_cast h2
  refine ⟨fl_int (by rw [abs_of_nonneg (by omega)]; omega), ?_, ?_⟩
  · rw [abs_of_nonneg (by linarith)]; exact le_trans (by norm_num) a
  · rw [abs_of_nonneg (by linarith)]; exact le_trans b.le (by norm_num)

/-- **C187, means of equal numbers.**  The mean of `n` copies is the number, whatever it is, exactly if `n` is
1, 2 or 4 (`n` up to `2²³`). -/
theorem copyMean_iff {n : Nat} (h1 : 1 ≤ n) (hn : n ≤ 2 ^ 23) :
    (∀ x, Mid x → copyMean n (.fin x) = .fin x) ↔ n = 1 ∨ n = 2 ∨ n = 4 := by
  constructor
  · intro h
    by_contra hc
    obtain ⟨x, c, e1, e2, x1, x2, c1, c2, hne⟩ := spoiled_spec h1 hn hc
    have hm := mid_int x1 x2
    have := h x hm
    rw [copyMean_val hm.le h1 (by omega), ← e1] at this
    have h3 : spoiledMean n = spoiled n := F32.fin.inj this
    rw [e1, e2] at h3
    have : c = x := by exact_mod_cast h3
    omega
  · intro h x hx
    exact copyMean_small h hx.1 hx.normal hx.le

example : copyMean 5 (.fin 13421775) ≠ .fin 13421775 := by decide +kernel
example : copyMean 4 (.fin 13421775) = .fin 13421775 := by decide +kernel

example : Mid (3 / 8) := ⟨by decide +kernel, by norm_num [abs_of_pos], by norm_num [abs_of_pos]⟩

/-! ## How far the mean of equal numbers can be off -/

theorem fl_rel_normal {x : ℚ} (h : 1 / 2 ^ 126 ≤ |x|) : |fl x - x| ≤ |x| / 2 ^ 24 := by
  have hx : x ≠ 0 := by
    rintro rfl
    rw [abs_zero] at h
    exact absurd h (by norm_num)
  refine le_trans (fl_err x) ?_
  by_cases hE : -149 < ulpExp x
  · have h := ulp_le_abs hx hE
    rw [pow_split] at h
    rw [div_le_div_iff₀ (by norm_num) (by norm_num)]
    norm_num at h ⊢
    linarith
  · have hE' : ulpExp x = -149 := by have := ulp_ge x; omega
    rw [hE', show (2 : ℚ) ^ (-149 : ℤ) / 2 = 1 / 2 ^ 126 / 2 ^ 24 by norm_num]
    exact div_le_div_of_nonneg_right h (by norm_num)

theorem runs_near {y : ℚ} (hy : 1 / 2 ^ 126 ≤ y) (k : Nat) :
    k * y * (1 - 1 / 2 ^ 24) ^ k ≤ runs y k ∧ runs y k ≤ k * y * (1 + 1 / 2 ^ 24) ^ k := by
  have hy0 : 0 < y := lt_of_lt_of_le (by norm_num) hy
  induction k with
  | zero => simp [runs]
  | succ k ih =>
    rw [runs_succ]
    have h0 := runs_nonneg hy0.le k
    have hp : 0 < runs y k + y := by linarith
    have hr := fl_rel_normal (x := runs y k + y) (by rw [abs_of_pos hp]; linarith)
    rw [abs_of_pos hp, abs_le] at hr
    have hpow : (1 : ℚ) ≤ (1 + 1 / 2 ^ 24) ^ k := one_le_pow₀ (by norm_num)
    have hpow' : (1 - 1 / 2 ^ 24 : ℚ) ^ k ≤ 1 := pow_le_one₀ (by norm_num) (by norm_num)
    have hk : (0 : ℚ) ≤ k := by positivity
    push_cast
    rw [pow_succ (1 - 1 / 2 ^ 24 : ℚ) k, pow_succ (1 + 1 / 2 ^ 24 : ℚ) k]
    generalize (1 + 1 / 2 ^ 24 : ℚ) ^ k = a at *
    generalize (1 - 1 / 2 ^ 24 : ℚ) ^ k = b at *
    have e1 : y * b ≤ y := by nlinarith
    have e2 : y ≤ y * a := by nlinarith
    constructor
    · have : (k + 1) * y * b ≤ runs y k + y := by nlinarith [ih.1]
      have h2 : (k + 1) * y * b * (1 - 1 / 2 ^ 24) ≤ (runs y k + y) * (1 - 1 / 2 ^ 24) :=
        mul_le_mul_of_nonneg_right this (by norm_num)
      linarith [hr.1]
    · have : runs y k + y ≤ (k + 1) * y * a := by nlinarith [ih.2]
      have h2 : (runs y k + y) * (1 + 1 / 2 ^ 24) ≤ (k + 1) * y * a * (1 + 1 / 2 ^ 24) :=
        mul_le_mul_of_nonneg_right this (by norm_num)
      linarith [hr.2]

/-- Rounded quotients and sums of `n` copies: relative error at most `2 (n + 1)` units of `2⁻²⁴`. -/
theorem copyMean_near_pos {x : ℚ} (h1 : 1 / 2 ^ 90 ≤ x) {n : Nat} (hn1 : 1 ≤ n) (hn : n ≤ 16383) :
    |fl (runs x n / n) - x| ≤ 2 * (n + 1) / 2 ^ 24 * x := by
  have hx0 : 0 < x := lt_of_lt_of_le (by norm_num) h1
  have hp : (0 : ℚ) < n := by exact_mod_cast hn1
  have hr := runs_near (y := x) (le_trans (by norm_num) h1) n
  have a1 : x * (1 - 1 / 2 ^ 24) ^ n ≤ runs x n / n := by rw [le_div_iff₀ hp]; linarith [hr.1]
  have a2 : runs x n / n ≤ x * (1 + 1 / 2 ^ 24) ^ n := by rw [div_le_iff₀ hp]; linarith [hr.2]
  have b1 : 1 - (n + 1) / 2 ^ 24 ≤ (1 - 1 / 2 ^ 24 : ℚ) ^ (n + 1) := by
    have := one_add_mul_le_pow (a := (-(1 / 2 ^ 24) : ℚ)) (by norm_num) (n + 1)
    rw [← sub_eq_add_neg] at this
    push_cast at this
    linarith
  have b2 := pow_lin (n := n + 1) (by omega)
  have hl : (1 : ℚ) / 2 ≤ (1 - 1 / 2 ^ 24) ^ n := by
    have := one_add_mul_le_pow (a := (-(1 / 2 ^ 24) : ℚ)) (by norm_num) n
    rw [← sub_eq_add_neg] at this
    have hq : (n : ℚ) ≤ 16383 := by exact_mod_cast hn
    linarith
  have q1 : x * (1 / 2) ≤ runs x n / n := le_trans (mul_le_mul_of_nonneg_left hl hx0.le) a1
  have q0 : 0 < runs x n / n := by linarith
  have q2 : (1 : ℚ) / 2 ^ 126 ≤ |runs x n / n| := by
    rw [abs_of_pos q0]
    have : (1 : ℚ) / 2 ^ 90 * (1 / 2) ≤ x * (1 / 2) := mul_le_mul_of_nonneg_right h1 (by norm_num)
    exact le_trans (by norm_num) (le_trans this q1)
  have hf := fl_rel_normal q2
  rw [abs_of_pos q0, abs_le] at hf
  rw [pow_succ (1 - 1 / 2 ^ 24 : ℚ) n] at b1
  rw [pow_succ (1 + 1 / 2 ^ 24 : ℚ) n] at b2
  push_cast at b2
  have c1 : x * (1 - 1 / 2 ^ 24) ^ n * (1 - 1 / 2 ^ 24) ≤ runs x n / n * (1 - 1 / 2 ^ 24) :=
    mul_le_mul_of_nonneg_right a1 (by norm_num)
  have c2 : runs x n / n * (1 + 1 / 2 ^ 24) ≤ x * (1 + 1 / 2 ^ 24) ^ n * (1 + 1 / 2 ^ 24) :=
    mul_le_mul_of_nonneg_right a2 (by norm_num)
  have d1 := mul_le_mul_of_nonneg_left b1 hx0.le
  have d2 := mul_le_mul_of_nonneg_left b2 hx0.le
  have e0 : (0 : ℚ) ≤ (n + 1) / 2 ^ 24 * x := by positivity
  generalize runs x n / n = q at *
  rw [abs_le]
  constructor
  · linarith [hf.1]
  · linarith [hf.2]

/-- **C187, accuracy.**  The mean of `n` equal numbers is off by at most `2 (n + 1)` units of `2⁻²⁴`. -/
theorem copyMean_near {x : ℚ} (hx : Mid x) {n : Nat} (hn1 : 1 ≤ n) (hn : n ≤ 16383) :
    ∃ c, copyMean n (.fin x) = .fin c ∧ |c - x| ≤ 2 * (n + 1) / 2 ^ 24 * |x| := by
  refine ⟨_, copyMean_val hx.le hn1 (by omega), ?_⟩
  rcases abs_cases x with ⟨e, h⟩ | ⟨e, h⟩
  · rw [e]
    exact copyMean_near_pos (by have := hx.2.1; rw [e] at this; exact le_trans (by norm_num) this) hn1 hn
  · rw [e]
    have := copyMean_near_pos (x := -x) (by have := hx.2.1; rw [e] at this; exact le_trans (by norm_num) this) hn1 hn
    rw [runs_neg, neg_div, fl_neg] at this
    rwa [show -fl (runs x n / n) - -x = -(fl (runs x n / n) - x) by ring, abs_neg] at this

/-! ## `remove_stripe_sf` -/

theorem sfAt_inj (d : SfArgs) {p s j p' s' j' : Nat} (hs : s < d.dy) (hj : j < d.dz)
    (hs' : s' < d.dy) (hj' : j' < d.dz) (h : sfAt d p s j = sfAt d p' s' j') : p = p' ∧ s = s' ∧ j = j' := by
  refine Tomopy.Stripe.sfAddr_inj d hs hj hs' hj' ?_
  unfold Tomopy.Stripe.sfAddr
  unfold sfAt at h
  exact_mod_cast h

/-- Cells updated one after the other, each from itself. -/
theorem fold_own {ν V : Type} (addr : ν → Nat) (g : ν → V → V) (l : List ν) :
    ∀ m : Nat → V, (l.map addr).Nodup →
      (∀ v ∈ l, l.foldl (fun m' v => update m' (addr v) (g v (m' (addr v)))) m (addr v) = g v (m (addr v))) ∧
      ∀ a, a ∉ l.map addr → l.foldl (fun m' v => update m' (addr v) (g v (m' (addr v)))) m a = m a := by
  induction l with
  | nil => intro m _; exact ⟨fun v hv => absurd hv (by simp), fun _ _ => rfl⟩
  | cons w l ih =>
    intro m hn
    rw [List.map_cons, List.nodup_cons] at hn
    obtain ⟨i1, i2⟩ := ih (update m (addr w) (g w (m (addr w)))) hn.2
    constructor
    · intro v hv
      rw [List.foldl_cons]
      by_cases h : addr v = addr w
      · rw [i2 (addr v) (h ▸ hn.1), h, Function.update_self]
        rcases List.mem_cons.1 hv with rfl | hv
        · rfl
        · exact absurd (List.mem_map.2 ⟨v, hv, h⟩) hn.1
      · rcases List.mem_cons.1 hv with rfl | hv
        · exact absurd rfl h
        · rw [i1 v hv, Function.update_of_ne h]
    · intro a ha
      rw [List.map_cons, List.mem_cons, not_or] at ha
      rw [List.foldl_cons, i2 a ha.2, Function.update_of_ne ha.1]

theorem pixels_nodup (d : SfArgs) {s : Nat} (hs : s < d.dy) :
    ((sfPixels d).map fun v => sfAt d v.1 s v.2).Nodup := by
  refine (nodup_sfPixels d).map_on ?_
  intro v hv w hw h
  obtain ⟨h1, _, h2⟩ := sfAt_inj d hs (mem_sfPixels.1 hv).2 hs (mem_sfPixels.1 hw).2 h
  exact Prod.ext h1 h2

theorem sliceF_self (d : SfArgs) (m : Nat → F32) {s p j : Nat} (hs : s < d.dy) (hp : p < d.dx) (hj : j < d.dz) :
    sfSliceF d m s (sfAt d p s j) =
      F32.sub (m (sfAt d p s j)) (F32.sub (sfAvgF d m s j) (sfSmoothF d (sfAvgF d m s) j)) :=
  (fold_own (fun v : Nat × Nat => sfAt d v.1 s v.2)
    (fun v x => F32.sub x (F32.sub (sfAvgF d m s v.2) (sfSmoothF d (sfAvgF d m s) v.2))) (sfPixels d) m
    (pixels_nodup d hs)).1 (p, j) (mem_sfPixels.2 ⟨hp, hj⟩)

theorem sliceF_other (d : SfArgs) (m : Nat → F32) {s s' p j : Nat} (hs : s < d.dy) (hs' : s' < d.dy)
    (hj : j < d.dz) (h : s' ≠ s) : sfSliceF d m s (sfAt d p s' j) = m (sfAt d p s' j) := by
  refine (fold_own (fun v : Nat × Nat => sfAt d v.1 s v.2)
    (fun v x => F32.sub x (F32.sub (sfAvgF d m s v.2) (sfSmoothF d (sfAvgF d m s) v.2))) (sfPixels d) m
    (pixels_nodup d hs)).2 _ ?_
  intro hm
  obtain ⟨v, hv, e⟩ := List.mem_map.1 hm
  exact h (sfAt_inj d hs (mem_sfPixels.1 hv).2 hs' hj e).2.1.symm

theorem avgF_congr (d : SfArgs) {m m' : Nat → F32} {s j : Nat}
    (h : ∀ p < d.dx, m (sfAt d p s j) = m' (sfAt d p s j)) : sfAvgF d m s j = sfAvgF d m' s j := by
  unfold sfAvgF
  refine List.foldl_ext _ _ _ fun a p hp => ?_
  rw [h p (List.mem_range.1 hp)]

theorem clamp_lt (d : SfArgs) (hz : 0 < d.dz) (i t : Nat) : (sfClamp d i t).toNat < d.dz := by
  unfold sfClamp
  simp only
  split <;> split <;> omega

theorem smoothF_congr (d : SfArgs) (hz : 0 < d.dz) {a b : Nat → F32} (h : ∀ j < d.dz, a j = b j) (i : Nat) :
    sfSmoothF d a i = sfSmoothF d b i := by
  unfold sfSmoothF
  congr 1
  refine List.foldl_ext _ _ _ fun s t _ => ?_
  rw [h _ (clamp_lt d hz i t)]

/-- **C187, what `remove_stripe_sf` returns.**  Every entry comes from the averages of its own slice as given. -/
theorem sfF_result (d : SfArgs) (m : Nat → F32) {s p j : Nat} (hs : s < d.dy) (hp : p < d.dx) (hj : j < d.dz) :
    removeStripeSfF d m (sfAt d p s j) =
      F32.sub (m (sfAt d p s j)) (F32.sub (sfAvgF d m s j) (sfSmoothF d (sfAvgF d m s) j)) := by
  have key : ∀ n ≤ d.dy,
      (∀ s < d.dy, n ≤ s → ∀ p, ∀ j < d.dz,
        (List.range n).foldl (sfSliceF d) m (sfAt d p s j) = m (sfAt d p s j)) ∧
      (∀ s < n, ∀ p < d.dx, ∀ j < d.dz, (List.range n).foldl (sfSliceF d) m (sfAt d p s j) =
        F32.sub (m (sfAt d p s j)) (F32.sub (sfAvgF d m s j) (sfSmoothF d (sfAvgF d m s) j))) := by
    intro n
    induction n with
    | zero => intro _; exact ⟨fun _ _ _ _ _ _ => rfl, fun _ h => absurd h (by omega)⟩
    | succ n ih =>
      intro hn
      obtain ⟨i1, i2⟩ := ih (by omega)
      rw [List.range_succ, List.foldl_append]
      simp only [List.foldl_cons, List.foldl_nil]
      constructor
      · intro s hs h p j hj
        rw [sliceF_other d _ (by omega) hs hj (by omega), i1 s hs (by omega) p j hj]
      · intro s h p hp j hj
        by_cases e : s = n
        · subst e
          have hA : ∀ j < d.dz, sfAvgF d ((List.range s).foldl (sfSliceF d) m) s j = sfAvgF d m s j :=
            fun j hj => avgF_congr d fun p _ => i1 s (by omega) le_rfl p j hj
          rw [sliceF_self d _ (by omega) hp hj, i1 s (by omega) le_rfl p j hj, hA j hj,
            smoothF_congr d (by omega) hA]
        · rw [sliceF_other d _ (by omega) (by omega) hj e, i2 s (by omega) p hp j hj]
  exact (key d.dy le_rfl).2 s hs p hp j hj

/-- The average row of a flat slice. -/
def flatAvg (dx : Nat) (x : F32) : F32 :=
  (List.replicate dx (F32.div x (F32.round dx))).foldl F32.add (.fin 0)

theorem foldl_const {α : Type} (l : List α) (f : α → F32) (x a : F32) (h : ∀ v ∈ l, f v = x) :
    l.foldl (fun a v => F32.add a (f v)) a = (List.replicate l.length x).foldl F32.add a := by
  induction l generalizing a with
  | nil => rfl
  | cons v l ih =>
    rw [List.foldl_cons, List.length_cons, List.replicate_succ, List.foldl_cons, h v (by simp),
      ih _ fun w hw => h w (by simp [hw])]

theorem flat_avg (d : SfArgs) {m : Nat → F32} {s : Nat} {x : F32} (hf : FlatSlice d m s x) {j : Nat}
    (hj : j < d.dz) : sfAvgF d m s j = flatAvg d.dx x := by
  have := foldl_const (List.range d.dx) (fun p => F32.div (m (sfAt d p s j)) (F32.round d.dx))
    (F32.div x (F32.round d.dx)) (.fin 0) fun p hp => by rw [hf p (List.mem_range.1 hp) j hj]
  rw [List.length_range] at this
  exact this

theorem flat_smooth (d : SfArgs) {n : Nat} (hn : d.size = n) {a : Nat → F32} {A : F32} (hz : 0 < d.dz)
    (ha : ∀ j < d.dz, a j = A) (i : Nat) : sfSmoothF d a i = copyMean n A := by
  have := foldl_const (List.range d.size.toNat) (fun t : Nat => a (sfClamp d i t).toNat) A (.fin 0)
    fun t _ => ha _ (clamp_lt d hz i t)
  unfold sfSmoothF copyMean
  rw [this, List.length_range, hn, Int.toNat_natCast, Int.cast_natCast]

/-- **C187, a flat slice stays flat**: every entry becomes the same value. -/
theorem sf_flat_val (d : SfArgs) {n : Nat} (hn : d.size = n) {m : Nat → F32} {s : Nat} (hs : s < d.dy) {x : F32}
    (hf : FlatSlice d m s x) :
    FlatSlice d (removeStripeSfF d m) s
      (F32.sub x (F32.sub (flatAvg d.dx x) (copyMean n (flatAvg d.dx x)))) := by
  intro p hp j hj
  rw [sfF_result d m hs hp hj, hf p hp j hj, flat_avg d hf hj,
    flat_smooth d hn (by omega) (fun j hj => flat_avg d hf hj)]

theorem round_self {x : ℚ} (h : fl x = x) (h' : |x| < 2 ^ 128) : F32.round x = .fin x := by
  unfold F32.round
  rw [h, if_pos h']

theorem add_fin {a b : F32} {q : ℚ} (h : F32.add a b = .fin q) : fl q = q ∧ |q| < 2 ^ 128 := by
  cases a <;> cases b <;> simp only [F32.add, reduceCtorEq] at h
  · rename_i u v
    unfold F32.round at h
    split at h
    · rename_i hl
      have := F32.fin.inj h
      rw [← this]
      exact ⟨fl_fl _, hl⟩
    · exact absurd h (by simp)
  · split at h <;> exact absurd h (by simp)

theorem sub_same (q : ℚ) : F32.sub (.fin q) (.fin q) = .fin 0 := by
  show F32.round (q + -q) = _
  rw [add_neg_cancel, round_self fl_zero (by norm_num)]

theorem sub_zero' {x : ℚ} (h : fl x = x) (h' : |x| < 2 ^ 128) : F32.sub (.fin x) (.fin 0) = .fin x := by
  show F32.round (x + -0) = _
  rw [neg_zero, add_zero, round_self h h']

theorem avgF_float (d : SfArgs) (m : Nat → F32) (s j : Nat) {q : ℚ} (h : sfAvgF d m s j = .fin q) :
    fl q = q ∧ |q| < 2 ^ 128 := by
  unfold sfAvgF at h
  rcases d with ⟨dx, dy, dz, size⟩
  cases dx with
  | zero => simp only [List.range_zero, List.foldl_nil] at h; cases F32.fin.inj h; exact ⟨fl_zero, by norm_num⟩
  | succ n =>
    rw [List.range_succ, List.foldl_append] at h
    exact add_fin h

/-- **C187, `size = 1` does nothing.**  Whatever the data, entries with finite column averages come back bit for
bit. -/
theorem sf_size_one (d : SfArgs) (h1 : d.size = 1) (m : Nat → F32) {s p j : Nat} (hs : s < d.dy) (hp : p < d.dx)
    (hj : j < d.dz) {x : ℚ} (hx : m (sfAt d p s j) = .fin x) (hfl : fl x = x) (hb : |x| < 2 ^ 128)
    (hA : ∃ q, sfAvgF d m s j = .fin q) : removeStripeSfF d m (sfAt d p s j) = .fin x := by
  obtain ⟨q, hq⟩ := hA
  obtain ⟨f1, f2⟩ := avgF_float d m s j hq
  have hc : (sfClamp d j 0).toNat = j := by
    unfold sfClamp
    rw [h1]
    simp only [show Int.tdiv 1 2 = 0 from rfl]
    split <;> split <;> omega
  have hS : sfSmoothF d (sfAvgF d m s) j = .fin q := by
    unfold sfSmoothF
    rw [h1]
    show F32.div (F32.add (.fin 0) (sfAvgF d m s (sfClamp d j ((0 : Nat) : Int)).toNat)) (F32.round ((1 : Int) : ℚ)) = _
    rw [Nat.cast_zero, hc, hq, show F32.add (.fin 0) (.fin q) = F32.round (0 + q) from rfl, zero_add,
      round_self f1 f2, show F32.round ((1 : Int) : ℚ) = .fin 1 by decide +kernel]
    show (if (1 : ℚ) = 0 then (if q = 0 then F32.nan else .inf (decide (q < 0))) else F32.round (q / 1)) = _
    rw [if_neg (by norm_num), div_one, round_self f1 f2]
  rw [sfF_result d m hs hp hj, hx, hq, hS, sub_same, sub_zero' hfl hb]

/-- The average of a flat column, without overflow. -/
theorem flatAvg_val {x : ℚ} (hx : Mid x) {dx : Nat} (h1 : 1 ≤ dx) (hn : dx ≤ 2 ^ 24) :
    flatAvg dx (.fin x) = .fin (runs (fl (x / dx)) dx) ∧ |fl (x / dx)| ≤ 2 ^ 60 ∧ 1 / 2 ^ 90 ≤ |fl (x / dx)| := by
  have hd : (1 : ℚ) ≤ dx := by exact_mod_cast h1
  have hd' : (dx : ℚ) ≤ 2 ^ 24 := by exact_mod_cast hn
  have a1 : |x / dx| ≤ 2 ^ 60 := by
    rw [abs_div, abs_of_pos (by linarith : (0 : ℚ) < dx)]
    exact le_trans (div_le_self (abs_nonneg x) hd) hx.2.2
  have a2 : 1 / 2 ^ 84 ≤ |x / dx| := by
    rw [abs_div, abs_of_pos (by linarith : (0 : ℚ) < dx), le_div_iff₀ (by linarith)]
    refine le_trans ?_ hx.2.1
    calc (1 : ℚ) / 2 ^ 84 * dx ≤ 1 / 2 ^ 84 * 2 ^ 24 := mul_le_mul_of_nonneg_left hd' (by norm_num)
      _ = 1 / 2 ^ 60 := by norm_num
  have h60 : fl ((2 : ℚ) ^ 60) = 2 ^ 60 := fl_exact 1 60 (by norm_num) (by norm_num) (by norm_num)
  have b1 : |fl (x / dx)| ≤ 2 ^ 60 := by
    rw [abs_le] at a1 ⊢
    constructor
    · have := fl_mono a1.1
      rwa [fl_neg, h60] at this
    · have := fl_mono a1.2
      rwa [h60] at this
  have b2 : 1 / 2 ^ 90 ≤ |fl (x / dx)| := by
    have h1 := fl_rel_normal (x := x / dx) (le_trans (by norm_num) a2)
    have h2 := abs_sub_abs_le_abs_sub (x / dx) (fl (x / dx))
    rw [abs_sub_comm] at h2
    have h3 : |x / dx| / 2 ^ 24 ≤ |x / dx| / 2 := div_le_div_of_nonneg_left (abs_nonneg _) (by norm_num) (by norm_num)
    have h4 : (1 : ℚ) / 2 ^ 90 ≤ 1 / 2 ^ 84 / 2 := by norm_num
    linarith
  refine ⟨?_, b1, b2⟩
  unfold flatAvg
  rw [round_nat hn]
  have e : F32.div (.fin x) (.fin (dx : ℚ)) = .fin (fl (x / dx)) := by
    show (if (dx : ℚ) = 0 then _ else F32.round (x / dx)) = _
    rw [if_neg (by linarith)]
    exact round_fin (le_trans a1 (by norm_num))
  rw [e]
  exact copies_runs dx (runs_fin (le_trans b1 (by norm_num)) dx hn)

theorem le_runs {y : ℚ} (h0 : 0 ≤ y) (hy : fl y = y) {k : Nat} (hk : 1 ≤ k) : y ≤ runs y k := by
  induction k with
  | zero => omega
  | succ k ih =>
    rw [runs_succ]
    calc y = fl y := hy.symm
      _ ≤ _ := fl_mono (by have := runs_nonneg h0 k; linarith)

/-- **C187, window sizes 1, 2 and 4 keep a flat slice**, whatever the number of projections. -/
theorem sf_flat_keeps (d : SfArgs) {n : Nat} (hn : d.size = n) (h : n = 1 ∨ n = 2 ∨ n = 4) (h1 : 1 ≤ d.dx)
    (h2 : d.dx ≤ 2 ^ 24) {m : Nat → F32} {s : Nat} (hs : s < d.dy) {x : ℚ} (hx : Mid x)
    (hf : FlatSlice d m s (.fin x)) : FlatSlice d (removeStripeSfF d m) s (.fin x) := by
  have hv := sf_flat_val d hn hs hf
  obtain ⟨e, b1, b2⟩ := flatAvg_val hx h1 h2
  have hA : copyMean n (flatAvg d.dx (.fin x)) = flatAvg d.dx (.fin x) := by
    rw [e]
    have e60 : (2 : ℚ) ^ (60 : ℤ) = 2 ^ 60 := by norm_cast
    have hlow : |fl (x / d.dx)| ≤ |runs (fl (x / d.dx)) d.dx| := by
      rw [abs_runs]
      refine le_runs (abs_nonneg _) ?_ h1
      rcases abs_cases (fl (x / d.dx)) with ⟨e, _⟩ | ⟨e, _⟩ <;> rw [e]
      · exact fl_fl _
      · rw [fl_neg, fl_fl]
    refine copyMean_small h ?_ (Or.inr ?_) ?_
    · obtain ⟨k, hk⟩ : ∃ k, d.dx = k + 1 := ⟨d.dx - 1, by omega⟩
      generalize fl (x / d.dx) = y
      rw [hk, runs_succ, fl_fl]
    · exact le_trans (by norm_num) (le_trans b2 hlow)
    · rw [abs_runs]
      have hb := runs_bound (y := |fl (x / d.dx)|) (b := 60) (by norm_num) (by rw [e60]; exact b1) d.dx h2
      rw [e60] at hb
      have hdq : (d.dx : ℚ) ≤ 2 ^ 24 := by exact_mod_cast h2
      calc _ ≤ (d.dx : ℚ) * 2 ^ 60 := hb
        _ ≤ 2 ^ 24 * 2 ^ 60 := mul_le_mul_of_nonneg_right hdq (by norm_num)
        _ ≤ 2 ^ 100 := by norm_num
  rw [hA, e, sub_same, sub_zero' hx.1 (lt_of_le_of_lt hx.2.2 (by norm_num))] at hv
  exact hv

theorem flatAvg_small {dx : Nat} (hd : dx = 1 ∨ dx = 2 ∨ dx = 4) {x : ℚ} (hx : Mid x) : flatAvg dx (.fin x) = .fin x := by
  have hp : ∃ L ≤ 2, dx = 2 ^ L := by
    rcases hd with rfl | rfl | rfl
    exacts [⟨0, by norm_num⟩, ⟨1, by norm_num⟩, ⟨2, by norm_num⟩]
  obtain ⟨L, hL, e⟩ := hp
  rw [(flatAvg_val hx (by omega) (by omega)).1]
  have h4 : (2 : ℚ) ^ L ≤ 4 := by
    calc (2 : ℚ) ^ L ≤ 2 ^ 2 := pow_le_pow_right₀ (by norm_num) hL
      _ = 4 := by norm_num
  have hN : Normal (x / 2 ^ L) := by
    right
    rw [abs_div, abs_of_pos (by positivity : (0 : ℚ) < 2 ^ L), le_div_iff₀ (by positivity)]
    refine le_trans ?_ hx.2.1
    calc (1 : ℚ) / 2 ^ 126 * 2 ^ L ≤ 1 / 2 ^ 126 * 4 := mul_le_mul_of_nonneg_left h4 (by norm_num)
      _ ≤ 1 / 2 ^ 60 := by norm_num
  have hF : Float x := ⟨hx.1, lt_of_le_of_lt hx.2.2 (by norm_num)⟩
  have hy := fl_div_pow hN hF
  have e' : (dx : ℚ) = 2 ^ L := by rw [e]; push_cast; rfl
  rw [e', hy]
  have hs : ∀ y : ℚ, fl y = y → Normal y → runs y dx = dx * y := by
    intro y hy hN
    have r1 : runs y 1 = y := by rw [runs_succ]; simp [runs, hy]
    have r2 : runs y 2 = 2 * y := by rw [runs_succ, r1, ← two_mul, fl_double hy]
    rcases hd with rfl | rfl | rfl
    · rw [r1]; norm_num
    · rw [r2]; norm_num
    · rw [runs_succ, runs_succ, r2, show 2 * y + y = 3 * y by ring, quad hy hN]; norm_num
  rw [hs _ hy hN, e', mul_div_cancel₀ _ (by positivity)]

/-- **C187, every other window size changes some flat slice**, in stacks of 1, 2 or 4 projections. -/
theorem sf_flat_changes (d : SfArgs) {n : Nat} (hn : d.size = n) (h1 : 1 ≤ n) (h23 : n ≤ 2 ^ 23)
    (h : ¬ (n = 1 ∨ n = 2 ∨ n = 4)) (hd : d.dx = 1 ∨ d.dx = 2 ∨ d.dx = 4) {m : Nat → F32} {s : Nat} (hs : s < d.dy)
    (hf : FlatSlice d m s (.fin (spoiled n))) :
    FlatSlice d (removeStripeSfF d m) s (.fin (spoiledMean n)) ∧ spoiledMean n ≠ spoiled n := by
  obtain ⟨x, c, e1, e2, x1, x2, c1, c2, hne⟩ := spoiled_spec h1 h23 h
  have hm := mid_int x1 x2
  have hv := sf_flat_val d hn hs hf
  have hC : copyMean n (.fin (spoiled n)) = .fin (spoiledMean n) := by
    rw [e1]
    rw [copyMean_val hm.le h1 (by omega), ← e1]
    rfl
  have hA : flatAvg d.dx (.fin (spoiled n)) = .fin (spoiled n) := by rw [e1]; exact flatAvg_small hd hm
  have hs1 : ∀ z : ℤ, |z| ≤ 2 ^ 24 → F32.round (z : ℚ) = .fin z := by
    intro z hz
    refine round_self (fl_int hz) ?_
    have : |(z : ℚ)| ≤ 2 ^ 24 := by exact_mod_cast hz
    exact lt_of_le_of_lt this (by norm_num)
  have hS : F32.sub (.fin (spoiled n)) (F32.sub (.fin (spoiled n)) (.fin (spoiledMean n))) = .fin (spoiledMean n) := by
    rw [e1, e2]
    show F32.sub _ (F32.round ((x : ℚ) + -(c : ℚ))) = _
    rw [show (x : ℚ) + -(c : ℚ) = ((x - c : ℤ) : ℚ) by push_cast; ring, hs1 _ (by rw [abs_le]; omega)]
    show F32.round ((x : ℚ) + -((x - c : ℤ) : ℚ)) = _
    rw [show (x : ℚ) + -((x - c : ℤ) : ℚ) = (c : ℚ) by push_cast; ring, hs1 c (by rw [abs_le]; omega)]
  rw [hA, hC, hS] at hv
  refine ⟨hv, ?_⟩
  rw [e1, e2]
  intro h3
  have : c = x := by exact_mod_cast h3
  omega

/-- **C187.**  `remove_stripe_sf` returns every flat sinogram unchanged exactly if the window size is 1, 2 or 4. -/
theorem sf_flat_iff {n : Nat} (h1 : 1 ≤ n) (h23 : n ≤ 2 ^ 23) :
    (∀ d : SfArgs, d.size = n → 1 ≤ d.dx → d.dx ≤ 2 ^ 24 → ∀ (m : Nat → F32) (s : Nat), s < d.dy → ∀ x, Mid x →
      FlatSlice d m s (.fin x) → FlatSlice d (removeStripeSfF d m) s (.fin x)) ↔ n = 1 ∨ n = 2 ∨ n = 4 := by
  constructor
  · intro h
    by_contra hc
    obtain ⟨x, c, e1, _, x1, x2, _⟩ := spoiled_spec h1 h23 hc
    let d : SfArgs := ⟨1, 1, 1, n⟩
    have hf : FlatSlice d (fun _ => .fin (spoiled n)) 0 (.fin (spoiled n)) := fun _ _ _ _ => rfl
    obtain ⟨k1, k2⟩ := sf_flat_changes d rfl h1 h23 hc (Or.inl rfl) (s := 0) Nat.one_pos hf
    have k3 := h d rfl le_rfl (by show 1 ≤ 2 ^ 24; norm_num) _ 0 Nat.one_pos (spoiled n)
      (by rw [e1]; exact mid_int x1 x2) hf
    have := (k1 0 Nat.one_pos 0 Nat.one_pos).symm.trans (k3 0 Nat.one_pos 0 Nat.one_pos)
    exact k2 (F32.fin.inj this)
  · intro h d hd a b m s hs x hx hf
    exact sf_flat_keeps d hd h a b hs hx hf

/-- **C187, the default window.**  180 projections of the value 13 with `size = 5`, any number of slices and
columns. -/
theorem sf_default_changes (dy dz : Nat) {m : Nat → F32} {s : Nat} (hs : s < dy)
    (hf : FlatSlice ⟨180, dy, dz, 5⟩ m s (.fin 13)) :
    FlatSlice ⟨180, dy, dz, 5⟩ (removeStripeSfF ⟨180, dy, dz, 5⟩ m) s (.fin (13631487 / 1048576)) := by
  have hv := sf_flat_val ⟨180, dy, dz, 5⟩ (n := 5) rfl hs hf
  have e : F32.sub (.fin 13) (F32.sub (flatAvg 180 (.fin 13)) (copyMean 5 (flatAvg 180 (.fin 13)))) =
      .fin (13631487 / 1048576) := by decide +kernel
  rw [e] at hv
  exact hv

-- Three projections, two slices, three columns; slice 1 is flat, slice 0 is not.
def exSino (i : Nat) : F32 := if i / 3 % 2 = 1 then .fin (3 / 8) else .fin (i * i)

example : FlatSlice ⟨3, 2, 3, 4⟩ exSino 1 (.fin (3 / 8)) := by
  intro p hp j hj
  have : p < 3 := hp
  have : j < 3 := hj
  interval_cases p <;> interval_cases j <;> rfl
example : removeStripeSfF ⟨3, 2, 3, 4⟩ exSino (sfAt ⟨3, 2, 3, 4⟩ 2 1 1) = .fin (3 / 8) := by decide +kernel
example : removeStripeSfF ⟨3, 2, 3, 4⟩ exSino (sfAt ⟨3, 2, 3, 4⟩ 2 0 2) ≠ exSino (sfAt ⟨3, 2, 3, 4⟩ 2 0 2) := by
  decide +kernel
example : removeStripeSfF ⟨3, 2, 3, 1⟩ exSino (sfAt ⟨3, 2, 3, 1⟩ 2 0 2) = .fin 196 ∧
    ∃ q, sfAvgF ⟨3, 2, 3, 1⟩ exSino 0 2 = .fin q := ⟨by decide +kernel, 88, by decide +kernel⟩

/-- **C187, accuracy of `remove_stripe_sf` on a flat slice.**  For every window size, the flat slice stays flat and
its value moves by at most `4 size + 8` units of `2⁻²⁴`. -/
theorem sf_flat_accurate (d : SfArgs) {n : Nat} (hn : d.size = n) (h1 : 1 ≤ n) (hn' : n ≤ 16383) (hd : 1 ≤ d.dx)
    (hd' : d.dx ≤ 16383) {m : Nat → F32} {s : Nat} (hs : s < d.dy) {x : ℚ} (hx : Mid x)
    (hf : FlatSlice d m s (.fin x)) :
    ∃ y, FlatSlice d (removeStripeSfF d m) s (.fin y) ∧ |y - x| ≤ (4 * n + 8) / 2 ^ 24 * |x| := by
  obtain ⟨e, b1, b2⟩ := flatAvg_val hx hd (by omega)
  have hnq : (1 : ℚ) ≤ n := by exact_mod_cast h1
  have hnq' : (n : ℚ) ≤ 16383 := by exact_mod_cast hn'
  have hdq : (1 : ℚ) ≤ d.dx := by exact_mod_cast hd
  have hdq' : (d.dx : ℚ) ≤ 16383 := by exact_mod_cast hd'
  -- the average is within a factor of 1 + 1/256 of the value
  have hA : |runs (fl (x / d.dx)) d.dx| ≤ |x| * (129 / 128) ∧ 1 / 2 ^ 90 ≤ |runs (fl (x / d.dx)) d.dx| := by
    rw [abs_runs]
    have hr := runs_near (y := |fl (x / d.dx)|) (le_trans (by norm_num) b2) d.dx
    have hq := pow_lin (n := d.dx + 1) (by omega)
    have hlow : |fl (x / d.dx)| ≤ runs |fl (x / d.dx)| d.dx := by
      refine le_runs (abs_nonneg _) ?_ hd
      rcases abs_cases (fl (x / d.dx)) with ⟨e, _⟩ | ⟨e, _⟩ <;> rw [e]
      · exact fl_fl _
      · rw [fl_neg, fl_fl]
    refine ⟨le_trans hr.2 ?_, le_trans b2 hlow⟩
    have hx1 : 1 / 2 ^ 126 ≤ |x / d.dx| := by
      rw [abs_div, abs_of_pos (by linarith : (0 : ℚ) < d.dx), le_div_iff₀ (by linarith)]
      refine le_trans ?_ hx.2.1
      calc (1 : ℚ) / 2 ^ 126 * d.dx ≤ 1 / 2 ^ 126 * 16383 := mul_le_mul_of_nonneg_left hdq' (by norm_num)
        _ ≤ 1 / 2 ^ 60 := by norm_num
    have h2 := fl_rel_normal hx1
    have h3 := abs_sub_abs_le_abs_sub (fl (x / d.dx)) (x / d.dx)
    have h4 : |fl (x / d.dx)| ≤ |x / d.dx| * (1 + 1 / 2 ^ 24) := by linarith
    have h5 : (d.dx : ℚ) * |x / d.dx| = |x| := by
      rw [abs_div, abs_of_pos (by linarith : (0 : ℚ) < d.dx), mul_div_cancel₀ _ (by linarith)]
    have h6 : (d.dx : ℚ) * |fl (x / d.dx)| ≤ |x| * (1 + 1 / 2 ^ 24) := by
      rw [← h5, mul_assoc]
      exact mul_le_mul_of_nonneg_left h4 (by linarith)
    have h7 : (1 + 1 / 2 ^ 24 : ℚ) ^ (d.dx + 1) ≤ 129 / 128 := by
      push_cast at hq
      linarith
    calc _ ≤ |x| * (1 + 1 / 2 ^ 24) * (1 + 1 / 2 ^ 24) ^ d.dx := mul_le_mul_of_nonneg_right h6 (by positivity)
      _ = |x| * (1 + 1 / 2 ^ 24) ^ (d.dx + 1) := by rw [pow_succ (1 + 1 / 2 ^ 24 : ℚ) d.dx]; ring
      _ ≤ _ := mul_le_mul_of_nonneg_left h7 (abs_nonneg x)
  have hv := sf_flat_val d hn hs hf
  rw [e] at hv
  generalize runs (fl (x / d.dx)) d.dx = A at hA hv
  have hA60 : |A| ≤ 2 ^ 100 := by
    have := hx.2.2
    have h8 : (2 : ℚ) ^ 60 * (129 / 128) ≤ 2 ^ 100 := by norm_num
    linarith [hA.1]
  rw [copyMean_val hA60 h1 (by omega)] at hv
  have hC : |fl (runs A n / n) - A| ≤ 2 * (n + 1) / 2 ^ 24 * |A| := by
    have key : ∀ z : ℚ, 1 / 2 ^ 90 ≤ z → |fl (runs z n / n) - z| ≤ 2 * (n + 1) / 2 ^ 24 * z := fun z hz =>
      copyMean_near_pos hz h1 hn'
    rcases abs_cases A with ⟨e, h⟩ | ⟨e, h⟩
    · rw [e]
      exact key A (by have := hA.2; rwa [e] at this)
    · rw [e]
      have := key (-A) (by have := hA.2; rwa [e] at this)
      rw [runs_neg, neg_div, fl_neg] at this
      rwa [show -fl (runs A n / n) - -A = -(fl (runs A n / n) - A) by ring, abs_neg] at this
  generalize fl (runs A n / n) = C at hC hv
  have hX := hx.2.2
  have hX1 := hx.2.1
  have hX0 := abs_nonneg x
  have hn2 : 2 * ((n : ℚ) + 1) / 2 ^ 24 ≤ 1 / 256 := by
    rw [div_le_iff₀ (by norm_num)]; linarith
  have hn0 : (0 : ℚ) ≤ 2 * (n + 1) / 2 ^ 24 := by positivity
  have d1 : |A - C| ≤ 2 * (n + 1) / 2 ^ 24 * (|x| * (129 / 128)) := by
    rw [abs_sub_comm]
    exact le_trans hC (mul_le_mul_of_nonneg_left hA.1 hn0)
  have d2 : |A - C| ≤ |x| / 128 := by
    have : 2 * ((n : ℚ) + 1) / 2 ^ 24 * (|x| * (129 / 128)) ≤ 1 / 256 * (|x| * (129 / 128)) :=
      mul_le_mul_of_nonneg_right hn2 (by linarith)
    linarith
  have s1 : F32.sub (.fin A) (.fin C) = .fin (fl (A - C)) := by
    show F32.round (A + -C) = _
    rw [← sub_eq_add_neg]
    exact round_fin (by have h8 : (2 : ℚ) ^ 60 / 128 ≤ 2 ^ 126 := by norm_num
                        linarith)
  have r1 := fl_rel (A - C)
  have f1 := abs_fl_le (A - C)
  have t0 : (1 : ℚ) / 2 ^ 150 ≤ |x| / 2 ^ 80 := by
    rw [le_div_iff₀ (by norm_num)]
    exact le_trans (by norm_num) hX1
  have D : |fl (A - C)| ≤ |x| / 64 := by linarith
  have a1 := abs_sub x (fl (A - C))
  have s2 : F32.sub (.fin x) (.fin (fl (A - C))) = .fin (fl (x - fl (A - C))) := by
    show F32.round (x + -fl (A - C)) = _
    rw [← sub_eq_add_neg]
    refine round_fin ?_
    have h8 : (2 : ℚ) ^ 60 + 2 ^ 60 / 64 ≤ 2 ^ 126 := by norm_num
    linarith
  rw [s1, s2] at hv
  refine ⟨_, hv, ?_⟩
  have r2 := fl_rel (x - fl (A - C))
  have tri : |fl (x - fl (A - C)) - x| ≤ |fl (x - fl (A - C)) - (x - fl (A - C))| + |fl (A - C)| := by
    have := abs_add_le (fl (x - fl (A - C)) - (x - fl (A - C))) (-fl (A - C))
    rw [abs_neg] at this
    rwa [show fl (x - fl (A - C)) - (x - fl (A - C)) + -fl (A - C) = fl (x - fl (A - C)) - x by ring] at this
  have nx : (0 : ℚ) ≤ n * |x| := by positivity
  have q0 : |x| ≤ n * |x| := by nlinarith
  have e1 : 2 * ((n : ℚ) + 1) / 2 ^ 24 * (|x| * (129 / 128)) = (n * |x| + |x|) * (129 / 64) / 2 ^ 24 := by ring
  have e2 : (4 * (n : ℚ) + 8) / 2 ^ 24 * |x| = (4 * (n * |x|) + 8 * |x|) / 2 ^ 24 := by ring
  rw [e1] at d1
  rw [e2]
  generalize (n : ℚ) * |x| = N at *
  linarith

/-! ## `normalize_bg` -/

theorem airF_const {n : Nat} {pix : Nat → F32} {x : F32} (h : ∀ j < n, pix j = x) {c : ℚ} (hc : 0 < c)
    (hm : copyMean n x = .fin c) : airF n pix = .fin c := by
  unfold airF
  rw [foldl_const (List.range n) pix x (.fin 0) fun j hj => h j (List.mem_range.1 hj), List.length_range]
  rw [show F32.div ((List.replicate n x).foldl F32.add (.fin 0)) (F32.round n) = copyMean n x from rfl, hm]
  simp [not_le.2 hc]

/-- A line without slope. -/
theorem mac_flat (fused : Bool) {j : Nat} (hj : j ≤ 2 ^ 24) {c : ℚ} (h : fl c = c) (h' : |c| < 2 ^ 128) :
    F32.mac fused (.fin 0) (F32.round j) (.fin c) = .fin c := by
  rw [round_nat hj]
  cases fused
  · show F32.add (F32.round (0 * j)) (.fin c) = _
    rw [zero_mul, round_self fl_zero (by norm_num)]
    show F32.round (0 + c) = _
    rw [zero_add, round_self h h']
  · show F32.round (0 * j + c) = _
    rw [zero_mul, zero_add, round_self h h']

theorem div_fin {a b : ℚ} (hb : b ≠ 0) : F32.div (.fin a) (.fin b) = F32.round (a / b) := by
  show (if b = 0 then (if a = 0 then F32.nan else .inf (decide (a < 0))) else F32.round (a / b)) = _
  rw [if_neg hb]

/-- A row of equal pixels: every pixel is divided by the mean of the air pixels. -/
theorem bg_const (fused : Bool) {dz nair : Nat} (h2 : 2 ≤ dz) (hz : dz ≤ 2 ^ 24) (ha : nair ≤ dz) {row : Nat → F32}
    {x c : ℚ} (hr : ∀ j < dz, row j = .fin x) (hm : copyMean nair (.fin x) = .fin c) (hc : 0 < c) (hf : fl c = c)
    (hb : |c| < 2 ^ 128) {j : Nat} (hj : j < dz) : bgRowF fused dz nair row j = F32.round (x / c) := by
  unfold bgRowF
  have e1 : airF nair row = .fin c := airF_const (fun j hj => hr j (by omega)) hc hm
  have e2 : airF nair (fun t => row (dz - 1 - t)) = .fin c := airF_const (fun j hj => hr _ (by omega)) hc hm
  simp only [e1, e2, sub_same]
  have e3 : F32.round ((dz : ℚ) - 1) = .fin ((dz - 1 : Nat) : ℚ) := by
    rw [← round_nat (n := dz - 1) (by omega), Nat.cast_sub (by omega), Nat.cast_one]
  have hd : ((dz - 1 : Nat) : ℚ) ≠ 0 := by exact_mod_cast (by omega : dz - 1 ≠ 0)
  rw [e3, div_fin hd, zero_div, round_self fl_zero (by norm_num), mac_flat fused (by omega) hf hb, hr j hj,
    div_fin hc.ne']

/-- **C187, background normalisation of a constant row.**  With 1, 2 or 4 air pixels it becomes exactly one. -/
theorem bg_flat_ones (fused : Bool) {dz nair : Nat} (h2 : 2 ≤ dz) (hz : dz ≤ 2 ^ 24) (ha : nair ≤ dz)
    (h : nair = 1 ∨ nair = 2 ∨ nair = 4) {row : Nat → F32} {x : ℚ} (hx : Mid x) (h0 : 0 < x)
    (hr : ∀ j < dz, row j = .fin x) {j : Nat} (hj : j < dz) : bgRowF fused dz nair row j = .fin 1 := by
  rw [bg_const fused h2 hz ha hr (copyMean_small h hx.1 hx.normal hx.le) h0 hx.1
    (lt_of_le_of_lt hx.2.2 (by norm_num)) hj, div_self h0.ne']
  decide +kernel

/-- **C187, with any other number of air pixels some constant row does not become one.** -/
theorem bg_flat_not_ones (fused : Bool) {dz nair : Nat} (h2 : 2 ≤ dz) (hz : dz ≤ 2 ^ 24) (ha : nair ≤ dz)
    (h1 : 1 ≤ nair) (h23 : nair ≤ 2 ^ 23) (h : ¬ (nair = 1 ∨ nair = 2 ∨ nair = 4)) {row : Nat → F32}
    (hr : ∀ j < dz, row j = .fin (spoiled nair)) {j : Nat} (hj : j < dz) :
    ∃ y, bgRowF fused dz nair row j = .fin y ∧ y ≠ 1 := by
  obtain ⟨x, c, e1, e2, x1, x2, c1, c2, hne⟩ := spoiled_spec h1 h23 h
  have hm := mid_int x1 x2
  have hmc := mid_int c1 c2
  have hC : copyMean nair (.fin (spoiled nair)) = .fin (c : ℚ) := by
    rw [← e2, e1, copyMean_val hm.le h1 (by omega), ← e1]
    rfl
  have hcq : (2 : ℚ) ^ 23 ≤ c := by exact_mod_cast c1
  have hcq2 : (c : ℚ) ≤ 2 ^ 24 - 1 := by exact_mod_cast (by omega : c ≤ 2 ^ 24 - 1)
  have hxq : (x : ℚ) ≤ 2 ^ 24 := by exact_mod_cast x2.le
  have hxq0 : (0 : ℚ) ≤ x := by exact_mod_cast (by omega : 0 ≤ x)
  have hc0 : (0 : ℚ) < c := by linarith
  rw [bg_const fused h2 hz ha hr hC hc0 hmc.1 (lt_of_le_of_lt hmc.2.2 (by norm_num)) hj, e1]
  refine ⟨_, round_fin ?_, ?_⟩
  · rw [abs_of_nonneg (by positivity), div_le_iff₀ hc0]
    have : (2 : ℚ) ^ 24 ≤ 2 ^ 126 * c := by
      calc (2 : ℚ) ^ 24 ≤ 2 ^ 126 * 2 ^ 23 := by norm_num
        _ ≤ _ := mul_le_mul_of_nonneg_left hcq (by norm_num)
    linarith
  · by_cases hlt : c < x
    · have : (c : ℚ) + 1 ≤ x := by exact_mod_cast hlt
      have h3 : (1 : ℚ) + 1 / (2 ^ 24 - 1) ≤ x / c := by
        rw [le_div_iff₀ hc0]
        have : (1 : ℚ) / (2 ^ 24 - 1) * c ≤ 1 / (2 ^ 24 - 1) * (2 ^ 24 - 1) :=
          mul_le_mul_of_nonneg_left hcq2 (by norm_num)
        linarith [show (1 : ℚ) / (2 ^ 24 - 1) * (2 ^ 24 - 1) = 1 by norm_num]
      have h4 := fl_mono h3
      have h5 : (1 : ℚ) < fl (1 + 1 / (2 ^ 24 - 1)) := by decide +kernel
      linarith
    · have hxc : x + 1 ≤ c := by omega
      have : (x : ℚ) + 1 ≤ c := by exact_mod_cast hxc
      have h3 : (x : ℚ) / c ≤ 1 - 1 / 2 ^ 24 := by
        rw [div_le_iff₀ hc0]
        linarith
      have h4 := fl_mono h3
      have h5 : fl (1 - 1 / 2 ^ 24 : ℚ) < 1 := by decide +kernel
      linarith

/-- **C187.**  `normalize_bg` turns every constant row into ones exactly if the number of air pixels is 1, 2 or 4. -/
theorem bg_flat_iff (fused : Bool) {nair : Nat} (h1 : 1 ≤ nair) (h23 : nair ≤ 2 ^ 23) :
    (∀ dz, 2 ≤ dz → dz ≤ 2 ^ 24 → nair ≤ dz → ∀ (row : Nat → F32) (x : ℚ), Mid x → 0 < x →
      (∀ j < dz, row j = .fin x) → ∀ j < dz, bgRowF fused dz nair row j = .fin 1) ↔
    nair = 1 ∨ nair = 2 ∨ nair = 4 := by
  constructor
  · intro h
    by_contra hc
    obtain ⟨x, c, e1, _, x1, x2, _⟩ := spoiled_spec h1 h23 hc
    have h2 : 2 ≤ nair := by omega
    obtain ⟨y, k1, k2⟩ := bg_flat_not_ones fused (dz := nair) (row := fun _ => .fin (spoiled nair)) h2 (by omega)
      le_rfl h1 h23 hc (fun _ _ => rfl) (j := 0) (by omega)
    have k3 := h nair h2 (by omega) le_rfl (fun _ => .fin (spoiled nair)) (spoiled nair)
      (by rw [e1]; exact mid_int x1 x2) (by rw [e1]; exact_mod_cast (by omega : 0 < x)) (fun _ _ => rfl) 0 (by omega)
    exact k2 (F32.fin.inj (k1.symm.trans k3))
  · intro h dz h2 hz ha row x hx h0 hr j hj
    exact bg_flat_ones fused h2 hz ha h hx h0 hr hj

/-- **C187, counts.**  A constant row of whole numbers becomes ones while `air * value` is at most `2²⁴`: 16-bit
counts with up to 256 air pixels. -/
theorem bg_counts_ones (fused : Bool) {dz nair : Nat} (h2 : 2 ≤ dz) (hz : dz ≤ 2 ^ 24) (ha : nair ≤ dz) (h1 : 1 ≤ nair)
    {row : Nat → F32} {c : Nat} (h0 : 0 < c) (hc : nair * c ≤ 2 ^ 24) (hr : ∀ j < dz, row j = .fin c) {j : Nat}
    (hj : j < dz) : bgRowF fused dz nair row j = .fin 1 := by
  have hcb : c ≤ 2 ^ 24 := le_trans (Nat.le_mul_of_pos_left c h1) hc
  have hfl : ∀ z : Nat, z ≤ 2 ^ 24 → fl (z : ℚ) = z := by
    intro z hz
    have := fl_int (m := (z : ℤ)) (by rw [abs_of_nonneg (by omega)]; exact_mod_cast hz)
    exact_mod_cast this
  have hcq : (c : ℚ) ≤ 2 ^ 24 := by exact_mod_cast hcb
  have hc0 : (0 : ℚ) < c := by exact_mod_cast h0
  have hruns : ∀ k ≤ nair, runs (c : ℚ) k = ((k * c : Nat) : ℚ) := by
    intro k
    induction k with
    | zero => intro _; simp [runs]
    | succ k ih =>
      intro hk
      rw [runs_succ, ih (by omega), ← Nat.cast_add, show k * c + c = (k + 1) * c by ring]
      exact hfl _ (le_trans (Nat.mul_le_mul_right c hk) hc)
  have hn0 : (nair : ℚ) ≠ 0 := by exact_mod_cast (by omega : nair ≠ 0)
  have hm : copyMean nair (.fin (c : ℚ)) = .fin c := by
    rw [copyMean_val (by rw [abs_of_pos hc0]; exact le_trans hcq (by norm_num)) h1 (by omega), hruns nair le_rfl,
      Nat.cast_mul, mul_div_cancel_left₀ _ hn0, hfl c hcb]
  rw [bg_const fused h2 hz ha hr hm hc0 (hfl c hcb)
    (by rw [abs_of_pos hc0]; exact lt_of_le_of_lt hcq (by norm_num)) hj, div_self hc0.ne']
  decide +kernel

theorem copyMean_one {x : ℚ} (h : fl x = x) (hb : |x| ≤ 2 ^ 100) : copyMean 1 (.fin x) = .fin x := by
  rw [copyMean_val hb le_rfl (by norm_num), runs_succ]
  simp [runs, h]

theorem bg_one_air {dz : Nat} (h2 : 2 ≤ dz) (hz : dz ≤ 2 ^ 24) {row : Nat → F32} {l r : ℚ}
    (hl : row 0 = .fin l) (hr : row (dz - 1) = .fin r) (hl0 : 0 < l) (hr0 : 0 < r) (fl' : fl l = l) (fr : fl r = r)
    (bl : l ≤ 2 ^ 100) (br : r ≤ 2 ^ 100) (fused : Bool) (j : Nat) :
    bgRowF fused dz 1 row j = F32.div (row j)
      (F32.mac fused (.fin (fl (fl (r - l) / (dz - 1 : Nat)))) (F32.round j) (.fin l)) := by
  unfold bgRowF
  have e1 : airF 1 row = .fin l := by
    refine airF_const (x := .fin l) (fun j hj => ?_) hl0 (copyMean_one fl' (by rwa [abs_of_pos hl0]))
    rw [show j = 0 by omega, hl]
  have e2 : airF 1 (fun t => row (dz - 1 - t)) = .fin r := by
    refine airF_const (x := .fin r) (fun j hj => ?_) hr0 (copyMean_one fr (by rwa [abs_of_pos hr0]))
    rw [show j = 0 by omega, Nat.sub_zero, hr]
  have e3 : F32.round ((dz : ℚ) - 1) = .fin ((dz - 1 : Nat) : ℚ) := by
    rw [← round_nat (n := dz - 1) (by omega), Nat.cast_sub (by omega), Nat.cast_one]
  have hd : (1 : ℚ) ≤ ((dz - 1 : Nat) : ℚ) := by exact_mod_cast (by omega : 1 ≤ dz - 1)
  have hD : |r - l| ≤ 2 ^ 100 := by rw [abs_le]; constructor <;> linarith
  have e4 : F32.sub (.fin r) (.fin l) = .fin (fl (r - l)) := by
    show F32.round (r + -l) = _
    rw [← sub_eq_add_neg]
    exact round_fin (le_trans hD (by norm_num))
  simp only [e1, e2, e3, e4]
  rw [div_fin (by linarith), round_fin]
  rw [abs_div, abs_of_pos (by linarith : (0 : ℚ) < (dz - 1 : Nat))]
  refine le_trans (div_le_self (abs_nonneg _) hd) ?_
  have h1 := abs_fl_le (r - l)
  have h2 : (2 : ℚ) ^ 100 + 2 ^ 100 / 2 ^ 24 + 1 / 2 ^ 150 ≤ 2 ^ 126 := by norm_num
  linarith

/-- **C187, the left boundary.**  With one air pixel the first pixel becomes exactly one. -/
theorem bg_left_one (fused : Bool) {dz : Nat} (h2 : 2 ≤ dz) (hz : dz ≤ 2 ^ 24) {row : Nat → F32} {l r : ℚ}
    (hl : row 0 = .fin l) (hr : row (dz - 1) = .fin r) (hl0 : 0 < l) (hr0 : 0 < r) (fl' : fl l = l) (fr : fl r = r)
    (bl : l ≤ 2 ^ 100) (br : r ≤ 2 ^ 100) : bgRowF fused dz 1 row 0 = .fin 1 := by
  have hb : |l| < 2 ^ 128 := by rw [abs_of_pos hl0]; exact lt_of_le_of_lt bl (by norm_num)
  have hm : ∀ q : ℚ, F32.mac fused (.fin q) (F32.round ((0 : Nat) : ℚ)) (.fin l) = .fin l := by
    intro q
    rw [round_nat (by norm_num), Nat.cast_zero]
    cases fused
    · show F32.add (F32.round (q * 0)) (.fin l) = _
      rw [mul_zero, round_self fl_zero (by norm_num)]
      show F32.round (0 + l) = _
      rw [zero_add, round_self fl' hb]
    · show F32.round (q * 0 + l) = _
      rw [mul_zero, zero_add, round_self fl' hb]
  rw [bg_one_air h2 hz hl hr hl0 hr0 fl' fr bl br, hm, hl, div_fin hl0.ne', div_self hl0.ne']
  decide +kernel

/-- **C187, accuracy at the right boundary.**  The last pixel is one up to `8 (1 + left / right)` units of `2⁻²⁴`,
while the ratio of the ends is below `2²⁰`. -/
theorem bg_right_accurate (fused : Bool) {dz : Nat} (h2 : 2 ≤ dz) (hz : dz ≤ 2 ^ 24) {row : Nat → F32} {l r : ℚ}
    (hl : row 0 = .fin l) (hr : row (dz - 1) = .fin r) (ml : Mid l) (mr : Mid r) (hl0 : 0 < l) (hr0 : 0 < r)
    (hq : l + r ≤ 2 ^ 20 * r) :
    ∃ y, bgRowF fused dz 1 row (dz - 1) = .fin y ∧ |y - 1| ≤ 8 * (1 + l / r) / 2 ^ 24 := by
  have bl : l ≤ 2 ^ 60 := by have := ml.2.2; rwa [abs_of_pos hl0] at this
  have br : r ≤ 2 ^ 60 := by have := mr.2.2; rwa [abs_of_pos hr0] at this
  have ll : 1 / 2 ^ 60 ≤ l := by have := ml.2.1; rwa [abs_of_pos hl0] at this
  have lr : 1 / 2 ^ 60 ≤ r := by have := mr.2.1; rwa [abs_of_pos hr0] at this
  rw [bg_one_air h2 hz hl hr hl0 hr0 ml.1 mr.1 (le_trans bl (by norm_num)) (le_trans br (by norm_num)), hr,
    round_nat (by omega)]
  have hN : (1 : ℚ) ≤ ((dz - 1 : Nat) : ℚ) := by exact_mod_cast (by omega : 1 ≤ dz - 1)
  have hN' : ((dz - 1 : Nat) : ℚ) ≤ 2 ^ 24 := by exact_mod_cast (by omega : dz - 1 ≤ 2 ^ 24)
  generalize ((dz - 1 : Nat) : ℚ) = N at *
  have hN0 : 0 < N := by linarith
  obtain ⟨U, hU⟩ : ∃ U, U = (l + r) / 2 ^ 24 := ⟨_, rfl⟩
  have hS : l + r = 2 ^ 24 * U := by rw [hU]; ring
  have hU0 : 1 / 2 ^ 84 ≤ U := by rw [hU, le_div_iff₀ (by norm_num)]; linarith
  have hUb : U ≤ 2 ^ 40 := by rw [hU, div_le_iff₀ (by norm_num)]; linarith
  have hUr : U ≤ r / 16 := by rw [hU, div_le_iff₀ (by norm_num)]; linarith
  have ht : (1 : ℚ) / 2 ^ 150 ≤ U / 2 ^ 60 := by rw [le_div_iff₀ (by norm_num)]; linarith
  have hD0 : |r - l| ≤ 2 ^ 24 * U := by rw [abs_le]; constructor <;> linarith
  -- the rounded difference
  have hD := fl_rel (r - l)
  have hDa := abs_fl_le (r - l)
  generalize fl (r - l) = D at *
  -- the rounded slope, times the number of steps
  have hs : |fl (D / N) * N - D| ≤ |D| / 2 ^ 24 + N * (1 / 2 ^ 150) := by
    have h1 := mul_le_mul_of_nonneg_right (fl_rel (D / N)) hN0.le
    rw [← abs_of_pos hN0, ← abs_mul, abs_of_pos hN0, sub_mul, div_mul_cancel₀ _ hN0.ne', abs_div, abs_of_pos hN0,
      add_mul] at h1
    have e : |D| / N / 2 ^ 24 * N = |D| / 2 ^ 24 := by field_simp
    rw [e] at h1
    linarith
  have hNt : N * (1 / 2 ^ 150) ≤ U / 2 ^ 30 := by
    calc N * (1 / 2 ^ 150) ≤ 2 ^ 24 * (1 / 2 ^ 150) := mul_le_mul_of_nonneg_right hN' (by norm_num)
      _ ≤ 2 ^ 24 * (U / 2 ^ 60) := mul_le_mul_of_nonneg_left ht (by norm_num)
      _ ≤ U / 2 ^ 30 := by linarith
  generalize fl (D / N) = σ at *
  have a1 := abs_sub_abs_le_abs_sub (σ * N) D
  have hσ : |σ * N| ≤ 2 ^ 24 * U + 3 * U := by linarith
  have hmac : ∃ Q, F32.mac fused (.fin σ) (.fin N) (.fin l) = F32.round Q ∧ |Q - r| ≤ 7 / 2 * U := by
    cases fused
    · have hP := fl_rel (σ * N)
      refine ⟨fl (σ * N) + l, ?_, ?_⟩
      · show F32.add (F32.round (σ * N)) (.fin l) = _
        rw [round_fin (by
          have h8 : (2 : ℚ) ^ 24 * 2 ^ 40 + 3 * 2 ^ 40 ≤ 2 ^ 126 := by norm_num
          linarith)]
        rfl
      · have k1 := abs_le.1 hP
        have k2 := abs_le.1 hs
        have k3 := abs_le.1 hD
        rw [abs_le]
        constructor <;> linarith [k1.1, k1.2, k2.1, k2.2, k3.1, k3.2]
    · refine ⟨σ * N + l, rfl, ?_⟩
      have k2 := abs_le.1 hs
      have k3 := abs_le.1 hD
      rw [abs_le]
      constructor <;> linarith [k2.1, k2.2, k3.1, k3.2]
  obtain ⟨Q, e, hQ⟩ := hmac
  have hQa : |Q| ≤ r + 7 / 2 * U := by
    have := abs_sub_abs_le_abs_sub Q r
    rw [abs_of_pos hr0] at this
    linarith
  have hA := fl_rel Q
  rw [e, round_fin (by
    have h8 : (2 : ℚ) ^ 60 + 7 / 2 * 2 ^ 40 ≤ 2 ^ 126 := by norm_num
    linarith)]
  have hAr : |fl Q - r| ≤ 19 / 4 * U := by
    have k1 := abs_le.1 hA
    have k2 := abs_le.1 hQ
    rw [abs_le]
    constructor <;> linarith [k1.1, k1.2, k2.1, k2.2]
  generalize fl Q = A at *
  have hA7 : 7 / 10 * r ≤ A := by rw [abs_le] at hAr; linarith [hAr.1]
  have hA0 : 0 < A := by linarith
  have hz1 : |r / A - 1| ≤ 68 / 10 * (U / r) := by
    rw [show r / A - 1 = -((A - r) / A) by field_simp; ring, abs_neg, abs_div, abs_of_pos hA0, div_le_iff₀ hA0]
    refine le_trans hAr ?_
    have : U / r * (7 / 10 * r) ≤ U / r * A := mul_le_mul_of_nonneg_left hA7 (by
      exact div_nonneg (by linarith) hr0.le)
    have e : U / r * (7 / 10 * r) = 7 / 10 * U := by field_simp
    rw [e] at this
    linarith
  have hUr' : U / r ≤ 1 / 16 := by rw [div_le_iff₀ hr0]; linarith
  have hUr1 : 1 / 2 ^ 24 ≤ U / r := by
    rw [le_div_iff₀ hr0, hU, div_mul_eq_mul_div, one_mul]
    exact div_le_div_of_nonneg_right (by linarith) (by norm_num)
  have hz2 : |r / A| ≤ 1 + 68 / 10 * (U / r) := by
    have := abs_sub_abs_le_abs_sub (r / A) 1
    rw [abs_one] at this
    linarith
  refine ⟨fl (r / A), ?_, ?_⟩
  · rw [div_fin hA0.ne']
    refine round_fin ?_
    have : (2 : ℚ) ≤ 2 ^ 126 := by norm_num
    linarith
  · have hf := fl_rel (r / A)
    have e2 : 8 * (1 + l / r) / 2 ^ 24 = 8 * (U / r) := by
      rw [hU]; field_simp; ring
    rw [e2]
    generalize U / r = v at *
    have h9 : (1 : ℚ) / 2 ^ 150 ≤ v / 100 := by
      have : (1 : ℚ) / 2 ^ 150 ≤ 1 / 2 ^ 24 / 100 := by norm_num
      linarith
    rw [abs_le] at hf hz1 ⊢
    constructor <;> linarith [hf.1, hf.2, hz1.1, hz1.2]

/-- The row with ends `l`, `r`. -/
def endsRow (dz : Nat) (l r : ℚ) (j : Nat) : F32 := if j = dz - 1 then .fin r else .fin l

/-- **C187, the right boundary is not one**, although both ends are normal numbers and `air` is one. -/
theorem bg_right_not_one (fused : Bool) : bgRowF fused 8 1 (endsRow 8 1 32) 7 = .fin (8388609 / 8388608) ∧
    bgRowF fused 8 1 (endsRow 8 2 59) 7 = .fin (16777215 / 16777216) := by
  cases fused <;> decide +kernel

/-- **C187, a dark right boundary becomes infinite.**  16-bit counts on the left, a small positive number on the
right: the line passes through zero at the last pixel. -/
theorem bg_right_infinite (fused : Bool) : bgRowF fused 9 1 (endsRow 9 60000 (1 / 1024)) 8 = .inf false := by
  cases fused <;> decide +kernel

example : bgRowF true 8 3 (fun _ => .fin 11184814) 5 ≠ .fin 1 := by decide +kernel
example : bgRowF true 8 4 (fun _ => .fin 11184814) 5 = .fin 1 := by decide +kernel
example : bgRowF false 300 256 (fun _ => .fin 65535) 17 = .fin 1 := by decide +kernel
-- An ordinary row: left 100, right 200.
example : bgRowF false 5 1 (endsRow 5 100 200) 0 = .fin 1 ∧ bgRowF false 5 1 (endsRow 5 100 200) 4 = .fin 1 ∧
    bgRowF false 5 1 (endsRow 5 100 200) 2 = .fin (11184811 / 16777216) := by decide +kernel

end Tomopy.Fl
