import Mathlib.Data.Int.Log
import Mathlib.Data.Rat.Floor
import Mathlib.Algebra.Order.Round
import Mathlib.Algebra.Order.Field.Rat
import Mathlib.Tactic.Ring
import Mathlib.Tactic.Linarith
import Mathlib.Tactic.NormNum
import Mathlib.Tactic.FieldSimp
import Mathlib.Tactic.Positivity
import Mathlib.Algebra.Order.Field.Power

/-!
# IEEE 754 `binary32` rounding

`fl x` is the value of a `float` operation whose exact result is the rational `x`: round to
nearest, ties to even, with gradual underflow.  The exponent is not bounded above; where an
overflow to infinity can matter (the division of `calc_coords`) the model of the operation
tests for it.
-/

set_option linter.unusedSectionVars false

namespace Tomopy.Fl

/-- Round to the nearest integer, ties to even: the rounding of a significand in the default mode
of IEEE 754 that every `float` operation of `source/libtomo/recon/utils.c:67-355` uses. -/
def rne (y : ℚ) : ℤ :=
  if y - ⌊y⌋ < 1 / 2 then ⌊y⌋
  else if 1 / 2 < y - ⌊y⌋ then ⌊y⌋ + 1
  else if ⌊y⌋ % 2 = 0 then ⌊y⌋ else ⌊y⌋ + 1

/-- Exponent of the last place of a `float` near `x` (24 significant bits, smallest exponent
`-149`), for the type `float` of `source/libtomo/recon/utils.c:67-355`. -/
def ulpExp (x : ℚ) : ℤ := max (Int.log 2 |x|) (-126) - 23

/-- The `float` nearest to `x`, ties to even (the arithmetic of
`source/libtomo/recon/utils.c:67-355`); overflow is not part of this function. -/
def fl (x : ℚ) : ℚ := (rne (x / 2 ^ ulpExp x) : ℚ) * 2 ^ ulpExp x

/-! ## Rounding to integers -/

theorem rne_near (y : ℚ) : |(rne y : ℚ) - y| ≤ 1 / 2 := by
  have h0 := Int.floor_le y
  have h1 := Int.lt_floor_add_one y
  unfold rne
  rw [abs_le]
  split
  · constructor <;> linarith
  · split
    · push_cast
      constructor <;> linarith
    · split
      · constructor <;> linarith
      · push_cast
        constructor <;> linarith

theorem rne_int (n : ℤ) : rne (n : ℚ) = n := by
  have h : rne (n : ℚ) = ⌊(n : ℚ)⌋ := by
    unfold rne
    rw [if_pos]
    rw [Int.floor_intCast]
    norm_num
  rw [h, Int.floor_intCast]

theorem rne_mono {x y : ℚ} (h : x ≤ y) : rne x ≤ rne y := by
  rcases h.eq_or_lt with rfl | h
  · exact le_refl _
  by_contra hc
  have hc' : rne y + 1 ≤ rne x := by omega
  have hq : (rne y : ℚ) + 1 ≤ rne x := by exact_mod_cast hc'
  have h1 := abs_le.mp (rne_near x)
  have h2 := abs_le.mp (rne_near y)
  linarith [h1.1, h1.2, h2.1, h2.2]

theorem le_rne {n : ℤ} {y : ℚ} (h : (n : ℚ) ≤ y) : n ≤ rne y := by
  rw [← rne_int n]; exact rne_mono h

theorem rne_le {n : ℤ} {y : ℚ} (h : y ≤ n) : rne y ≤ n := by
  rw [← rne_int n]; exact rne_mono h

/-! ## The exponent -/

theorem two_zpow_pos (e : ℤ) : (0 : ℚ) < 2 ^ e := by positivity

theorem abs_lt_ulp (x : ℚ) : |x| < 2 ^ (ulpExp x + 24) := by
  have h := Int.lt_zpow_succ_log_self (b := 2) (by norm_num) |x|
  refine lt_of_lt_of_le h ?_
  have : Int.log 2 |x| + 1 ≤ ulpExp x + 24 := by
    unfold ulpExp
    have := le_max_left (Int.log 2 |x|) (-126)
    omega
  exact_mod_cast zpow_le_zpow_right₀ (by norm_num : (1 : ℚ) ≤ 2) this

theorem ulp_ge (x : ℚ) : -149 ≤ ulpExp x := by
  unfold ulpExp
  have := le_max_right (Int.log 2 |x|) (-126)
  omega

theorem ulp_le_abs {x : ℚ} (hx : x ≠ 0) (h : -149 < ulpExp x) :
    (2 : ℚ) ^ (ulpExp x + 23) ≤ |x| := by
  have h1 : ulpExp x + 23 = Int.log 2 |x| := by
    unfold ulpExp at h ⊢
    rcases le_total (Int.log 2 |x|) (-126) with h2 | h2
    · rw [max_eq_right h2] at h; omega
    · rw [max_eq_left h2]; omega
  rw [h1]
  exact_mod_cast Int.zpow_log_le_self (b := 2) (by norm_num) (abs_pos.mpr hx)

theorem ulp_mono {x y : ℚ} (hx : x ≠ 0) (h : |x| ≤ |y|) : ulpExp x ≤ ulpExp y := by
  unfold ulpExp
  have := Int.log_mono_right (b := 2) (abs_pos.mpr hx) h
  have := max_le_max_right (-126) this
  omega

/-! ## Rounding to `float` -/

theorem fl_zero : fl 0 = 0 := by
  have h : rne 0 = 0 := by exact_mod_cast rne_int 0
  simp [fl, h]

theorem fl_le_of {x : ℚ} {n : ℤ} (h : x ≤ n * 2 ^ ulpExp x) : fl x ≤ n * 2 ^ ulpExp x := by
  have hp := two_zpow_pos (ulpExp x)
  have : rne (x / 2 ^ ulpExp x) ≤ n := rne_le ((div_le_iff₀ hp).mpr h)
  have : (rne (x / 2 ^ ulpExp x) : ℚ) ≤ n := by exact_mod_cast this
  exact mul_le_mul_of_nonneg_right this hp.le

theorem le_fl_of {x : ℚ} {n : ℤ} (h : (n : ℚ) * 2 ^ ulpExp x ≤ x) :
    (n : ℚ) * 2 ^ ulpExp x ≤ fl x := by
  have hp := two_zpow_pos (ulpExp x)
  have : n ≤ rne (x / 2 ^ ulpExp x) := le_rne ((le_div_iff₀ hp).mpr h)
  have : (n : ℚ) ≤ (rne (x / 2 ^ ulpExp x) : ℚ) := by exact_mod_cast this
  exact mul_le_mul_of_nonneg_right this hp.le

theorem fl_grid {x : ℚ} {n : ℤ} (h : x = n * 2 ^ ulpExp x) : fl x = x :=
  le_antisymm (le_trans (fl_le_of h.le) h.ge) (le_trans h.le (le_fl_of h.ge))

theorem fl_nonneg {x : ℚ} (h : 0 ≤ x) : 0 ≤ fl x := by
  have := le_fl_of (x := x) (n := 0) (by simpa using h)
  simpa using this

theorem fl_nonpos {x : ℚ} (h : x ≤ 0) : fl x ≤ 0 := by
  have := fl_le_of (x := x) (n := 0) (by simpa using h)
  simpa using this

theorem fl_err (x : ℚ) : |fl x - x| ≤ 2 ^ ulpExp x / 2 := by
  have hp := two_zpow_pos (ulpExp x)
  have h := rne_near (x / 2 ^ ulpExp x)
  have e : fl x - x = ((rne (x / 2 ^ ulpExp x) : ℚ) - x / 2 ^ ulpExp x) * 2 ^ ulpExp x := by
    unfold fl
    field_simp
  rw [e, abs_mul, abs_of_pos hp]
  nlinarith

theorem pow_split (e : ℤ) (k : ℤ) : (2 : ℚ) ^ (e + k) = 2 ^ e * 2 ^ k :=
  zpow_add₀ (by norm_num) e k

/-- The error of one operation: half a unit in the last place, relative `2⁻²⁴`, or `2⁻¹⁵⁰` below
the normal range. -/
theorem fl_rel (x : ℚ) : |fl x - x| ≤ |x| / 2 ^ 24 + 1 / 2 ^ 150 := by
  by_cases hx : x = 0
  · subst hx
    rw [fl_zero]
    norm_num
  refine le_trans (fl_err x) ?_
  by_cases hE : -149 < ulpExp x
  · have h := ulp_le_abs hx hE
    rw [pow_split] at h
    have : (2 : ℚ) ^ ulpExp x / 2 ≤ |x| / 2 ^ 24 := by
      rw [div_le_div_iff₀ (by norm_num) (by norm_num)]
      norm_num at h ⊢
      linarith
    have : (0 : ℚ) < 1 / 2 ^ 150 := by positivity
    linarith
  · have hE' : ulpExp x = -149 := by have := ulp_ge x; omega
    rw [hE']
    have : 0 ≤ |x| / 2 ^ 24 := by positivity
    have : (2 : ℚ) ^ (-149 : ℤ) / 2 = 1 / 2 ^ 150 := by norm_num
    linarith

theorem fl_mono {x y : ℚ} (h : x ≤ y) : fl x ≤ fl y := by
  rcases le_or_gt x 0 with hx | hx
  · rcases le_or_gt 0 y with hy | hy
    · exact le_trans (fl_nonpos hx) (fl_nonneg hy)
    · have hxy : |y| ≤ |x| := by rw [abs_of_neg hy, abs_of_nonpos hx]; linarith
      rcases (ulp_mono hy.ne hxy).eq_or_lt with he | he
      · unfold fl
        rw [he]
        have hp := two_zpow_pos (ulpExp x)
        have h1 : rne (x / 2 ^ ulpExp x) ≤ rne (y / 2 ^ ulpExp x) :=
          rne_mono (div_le_div_of_nonneg_right h hp.le)
        have h2 : (rne (x / 2 ^ ulpExp x) : ℚ) ≤ rne (y / 2 ^ ulpExp x) := by exact_mod_cast h1
        exact mul_le_mul_of_nonneg_right h2 hp.le
      · have hx0 : x ≠ 0 := by intro h0; linarith
        have h1 := ulp_le_abs hx0 (lt_of_le_of_lt (ulp_ge y) he)
        rw [abs_of_nonpos hx, pow_split] at h1
        have h2 := abs_lt_ulp y
        rw [abs_of_neg hy, pow_split] at h2
        have h3 : fl x ≤ ((-2 ^ 23 : ℤ) : ℚ) * 2 ^ ulpExp x := by
          refine fl_le_of ?_
          push_cast
          norm_num at h1 ⊢
          linarith
        have h4 : ((-2 ^ 24 : ℤ) : ℚ) * 2 ^ ulpExp y ≤ fl y := by
          refine le_fl_of ?_
          push_cast
          norm_num at h2 ⊢
          linarith
        have h5 : (2 : ℚ) ^ (ulpExp y + 1) ≤ 2 ^ ulpExp x :=
          zpow_le_zpow_right₀ (by norm_num) (by omega)
        rw [pow_split] at h5
        push_cast at h3 h4
        norm_num at h3 h4 h5
        linarith
  · have hy : 0 < y := lt_of_lt_of_le hx h
    have hxy : |x| ≤ |y| := by rw [abs_of_pos hy, abs_of_pos hx]; exact h
    rcases (ulp_mono hx.ne' hxy).eq_or_lt with he | he
    · unfold fl
      rw [← he]
      have hp := two_zpow_pos (ulpExp x)
      have h1 : rne (x / 2 ^ ulpExp x) ≤ rne (y / 2 ^ ulpExp x) :=
        rne_mono (div_le_div_of_nonneg_right h hp.le)
      have h2 : (rne (x / 2 ^ ulpExp x) : ℚ) ≤ rne (y / 2 ^ ulpExp x) := by exact_mod_cast h1
      exact mul_le_mul_of_nonneg_right h2 hp.le
    · have h1 := ulp_le_abs hy.ne' (lt_of_le_of_lt (ulp_ge x) he)
      rw [abs_of_pos hy, pow_split] at h1
      have h2 := abs_lt_ulp x
      rw [abs_of_pos hx, pow_split] at h2
      have h3 : ((2 ^ 23 : ℤ) : ℚ) * 2 ^ ulpExp y ≤ fl y := by
        refine le_fl_of ?_
        push_cast
        norm_num at h1 ⊢
        linarith
      have h4 : fl x ≤ ((2 ^ 24 : ℤ) : ℚ) * 2 ^ ulpExp x := by
        refine fl_le_of ?_
        push_cast
        norm_num at h2 ⊢
        linarith
      have h5 : (2 : ℚ) ^ (ulpExp x + 1) ≤ 2 ^ ulpExp y :=
        zpow_le_zpow_right₀ (by norm_num) (by omega)
      rw [pow_split] at h5
      push_cast at h3 h4
      norm_num at h3 h4 h5
      linarith

/-- Numbers with at most 24 significant bits are not changed. -/
theorem fl_exact {x : ℚ} (m j : ℤ) (hm : |m| ≤ 2 ^ 24) (hj : -149 ≤ j) (hx : x = m * 2 ^ j) :
    fl x = x := by
  by_cases h0 : x = 0
  · rw [h0, fl_zero]
  by_cases hE : ulpExp x ≤ j
  · refine fl_grid (n := m * 2 ^ (j - ulpExp x).toNat) ?_
    have : (2 : ℚ) ^ j = 2 ^ (j - ulpExp x).toNat * 2 ^ ulpExp x := by
      rw [← zpow_natCast, ← zpow_add₀ (by norm_num)]
      congr 1
      omega
    rw [hx] at this ⊢
    push_cast
    rw [mul_assoc, ← this]
  · have h1 := ulp_le_abs h0 (by omega)
    have h2 : |x| = |m| * 2 ^ j := by
      rw [hx, abs_mul, abs_of_pos (two_zpow_pos j)]
      push_cast
      rfl
    have hmq : ((|m| : ℤ) : ℚ) ≤ 2 ^ 24 := by exact_mod_cast hm
    have h3 : (2 : ℚ) ^ (ulpExp x + 23) ≤ 2 ^ (j + 24) := by
      rw [pow_split j]
      refine le_trans h1 ?_
      rw [h2]
      have := mul_le_mul_of_nonneg_right hmq (two_zpow_pos j).le
      norm_num at this ⊢
      linarith
    have h4 : ulpExp x + 23 ≤ j + 24 := (zpow_le_zpow_iff_right₀ (by norm_num)).mp h3
    have h5 : ulpExp x = j + 1 := by omega
    have h6 : (2 : ℤ) ^ 24 ≤ |m| := by
      rw [h5, h2, pow_split, pow_split] at h1
      have hp := two_zpow_pos j
      have : (2 : ℚ) ^ 24 * 2 ^ j ≤ |m| * 2 ^ j := by
        norm_num at h1 ⊢
        linarith
      have := le_of_mul_le_mul_right this hp
      exact_mod_cast this
    have h7 : |m| = 2 ^ 24 := le_antisymm hm h6
    have hp1 : (2 : ℚ) ^ ulpExp x = 2 ^ j * 2 := by rw [h5, pow_split]; norm_num
    rcases abs_eq (by norm_num : (0 : ℤ) ≤ 2 ^ 24) |>.mp h7 with h8 | h8
    · refine fl_grid (n := 2 ^ 23) ?_
      rw [hp1, hx, h8]
      push_cast
      ring
    · refine fl_grid (n := -2 ^ 23) ?_
      rw [hp1, hx, h8]
      push_cast
      ring

theorem fl_int {m : ℤ} (hm : |m| ≤ 2 ^ 24) : fl (m : ℚ) = m :=
  fl_exact m 0 hm (by norm_num) (by simp)

theorem fl_half {m : ℤ} (hm : |m| ≤ 2 ^ 24) : fl ((m : ℚ) / 2) = m / 2 :=
  fl_exact m (-1) hm (by norm_num) (by rw [zpow_neg_one]; ring)

theorem fl_le_int {x : ℚ} {m : ℤ} (hm : |m| ≤ 2 ^ 24) (h : x ≤ m) : fl x ≤ m :=
  fl_int hm ▸ fl_mono h

theorem int_le_fl {x : ℚ} {m : ℤ} (hm : |m| ≤ 2 ^ 24) (h : (m : ℚ) ≤ x) : (m : ℚ) ≤ fl x := by
  have := fl_mono h
  rwa [fl_int hm] at this

/-- A third is not a `float`: the rounded value is the one with the significand `11184811`. -/
example : fl (1 / 3) = 11184811 / 2 ^ 25 := by decide +kernel

/-- A tie is rounded to the even significand. -/
example : fl (2 ^ 24 + 1) = 2 ^ 24 ∧ fl (2 ^ 24 + 3) = 2 ^ 24 + 4 := by decide +kernel

end Tomopy.Fl
