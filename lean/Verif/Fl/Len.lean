import Verif.Fl.LenModel
import Verif.Fl.Props
import Verif.Fl.Alone
import Verif.Fl.Fbp
import Mathlib.Analysis.SpecialFunctions.Pow.Real

/-!
# The segments in `float` arithmetic meet what the loops need
-/

set_option linter.unusedSectionVars false

namespace Tomopy.Fl

open Tomopy.Ray (Caps capsRecon trimLoop sortIntersections trimLoop_eq)
open Tomopy.Iter (Geom Dims Segs)

/-! ## The root -/

/-- The root cut at `2⁻²⁰⁰`. -/
def cut (x : ℚ) : ℚ := (Nat.sqrt ⌊x * 4 ^ 200⌋₊ : ℚ) / 2 ^ 200

theorem cut_nonneg (x : ℚ) : 0 ≤ cut x := by unfold cut; positivity

theorem cut_sq_le {x : ℚ} (hx : 0 ≤ x) : cut x ^ 2 ≤ x := by
  unfold cut
  rw [div_pow, div_le_iff₀ (by positivity)]
  have h1 : (Nat.sqrt ⌊x * 4 ^ 200⌋₊) ^ 2 ≤ ⌊x * 4 ^ 200⌋₊ := Nat.sqrt_le' _
  have h2 : (⌊x * 4 ^ 200⌋₊ : ℚ) ≤ x * 4 ^ 200 := Nat.floor_le (by positivity)
  have h3 : ((Nat.sqrt ⌊x * 4 ^ 200⌋₊ : ℚ)) ^ 2 ≤ (⌊x * 4 ^ 200⌋₊ : ℚ) := by exact_mod_cast h1
  calc ((Nat.sqrt ⌊x * 4 ^ 200⌋₊ : ℚ)) ^ 2 ≤ x * 4 ^ 200 := le_trans h3 h2
    _ = x * (2 ^ 200) ^ 2 := by rw [← pow_mul, mul_comm 200 2, pow_mul]; norm_num

theorem lt_cut_sq (x : ℚ) : x < (cut x + 1 / 2 ^ 200) ^ 2 := by
  have e : cut x + 1 / 2 ^ 200 = ((Nat.sqrt ⌊x * 4 ^ 200⌋₊ : ℚ) + 1) / 2 ^ 200 := by unfold cut; ring
  rw [e, div_pow, lt_div_iff₀ (by positivity)]
  have h1 : ⌊x * 4 ^ 200⌋₊ < (Nat.sqrt ⌊x * 4 ^ 200⌋₊ + 1) ^ 2 := Nat.lt_succ_sqrt' _
  have h2 : x * 4 ^ 200 < (⌊x * 4 ^ 200⌋₊ : ℚ) + 1 := Nat.lt_floor_add_one _
  have h3 : (⌊x * 4 ^ 200⌋₊ : ℚ) + 1 ≤ ((Nat.sqrt ⌊x * 4 ^ 200⌋₊ : ℚ) + 1) ^ 2 := by exact_mod_cast h1
  calc x * (2 ^ 200) ^ 2 = x * 4 ^ 200 := by rw [← pow_mul, mul_comm 200 2, pow_mul]; norm_num
    _ < _ := lt_of_lt_of_le h2 h3

/-- `sqrtF` rounds a number next to the root. -/
theorem sqrtF_eq {x : ℚ} (hx : 0 ≤ x) : ∃ r, sqrtF x = fl r ∧ 0 ≤ r ∧ cut x ≤ r ∧
    r < cut x + 1 / 2 ^ 200 ∧ (r ^ 2 = x ∨ (cut x) ^ 2 < x ∧ r = cut x + 1 / 2 ^ 201) := by
  unfold sqrtF
  have h0 := cut_nonneg x
  have hs := cut_sq_le hx
  change ∃ r, (if cut x ^ 2 = x then fl (cut x) else fl (cut x + 1 / 2 ^ 201)) = fl r ∧ _
  have n1 : (1 : ℚ) / 2 ^ 201 < 1 / 2 ^ 200 := by norm_num
  have n2 : (0 : ℚ) < 1 / 2 ^ 201 := by norm_num
  by_cases h : cut x ^ 2 = x
  · exact ⟨cut x, by rw [if_pos h], h0, le_refl _, by linarith, Or.inl h⟩
  · exact ⟨_, by rw [if_neg h], by linarith, by linarith, by linarith,
      Or.inr ⟨lt_of_le_of_ne hs h, rfl⟩⟩

theorem sqrtF_nonneg {x : ℚ} (hx : 0 ≤ x) : 0 ≤ sqrtF x := by
  obtain ⟨r, e, h, -⟩ := sqrtF_eq hx
  rw [e]
  exact fl_nonneg h

theorem sqrtF_float {x : ℚ} (hx : 0 ≤ x) : fl (sqrtF x) = sqrtF x := by
  obtain ⟨r, e, -⟩ := sqrtF_eq hx
  rw [e, fl_fl]

/-- Every number on the grid of the cut compares with it as with the root. -/
theorem grid_le_cut {x y : ℚ} (n : Nat) (hy : y = n / 2 ^ 200) (h : y ^ 2 ≤ x) : y ≤ cut x := by
  by_contra hc
  push Not at hc
  have h1 : cut x + 1 / 2 ^ 200 ≤ y := by
    unfold cut at hc ⊢
    rw [hy, div_lt_div_iff_of_pos_right (by positivity)] at hc
    have : (Nat.sqrt ⌊x * 4 ^ 200⌋₊ : ℚ) + 1 ≤ n := by exact_mod_cast hc
    rw [hy, ← add_div]
    exact div_le_div_of_nonneg_right this (by positivity)
  have := lt_cut_sq x
  have h0 := cut_nonneg x
  have : (cut x + 1 / 2 ^ 200) ^ 2 ≤ y ^ 2 := pow_le_pow_left₀ (by positivity) h1 2
  linarith

/-- The rounded root compares with floats as the root does. -/
theorem le_sqrtF {x y : ℚ} (hx : 0 ≤ x) (n : Nat) (hy : y = n / 2 ^ 200) (hf : fl y = y) (h : y ^ 2 ≤ x) :
    y ≤ sqrtF x := by
  obtain ⟨r, e, -, h1, -⟩ := sqrtF_eq hx
  rw [e, ← hf]
  exact fl_mono (le_trans (grid_le_cut n hy h) h1)

theorem sqrtF_le {x y : ℚ} (hx : 0 ≤ x) (hy0 : 0 ≤ y) (n : Nat) (hy : y = n / 2 ^ 200) (hf : fl y = y)
    (h : x ≤ y ^ 2) : sqrtF x ≤ y := by
  obtain ⟨r, e, h0, h1, h2, h3⟩ := sqrtF_eq hx
  rw [e, ← hf]
  refine fl_mono ?_
  rcases h3 with h3 | ⟨h3, h4⟩
  · exact (pow_le_pow_iff_left₀ h0 hy0 two_ne_zero).mp (by rw [h3]; exact h)
  · have h5 : cut x < y := lt_of_pow_lt_pow_left₀ 2 hy0 (lt_of_lt_of_le h3 h)
    have h6 : cut x + 1 / 2 ^ 200 ≤ y := by
      unfold cut at h5 ⊢
      rw [hy, div_lt_div_iff_of_pos_right (by positivity)] at h5
      have : (Nat.sqrt ⌊x * 4 ^ 200⌋₊ : ℚ) + 1 ≤ n := by exact_mod_cast h5
      rw [hy, ← add_div]
      exact div_le_div_of_nonneg_right this (by positivity)
    linarith

/-- The error of `sqrtf`. -/
theorem sqrtF_err {x : ℚ} (hx : 0 ≤ x) :
    |((sqrtF x : ℚ) : ℝ) - Real.sqrt x| ≤ Real.sqrt x / 2 ^ 24 + 1 / 2 ^ 149 := by
  obtain ⟨r, e, h0, h1, h2, -⟩ := sqrtF_eq hx
  have hxr : (0 : ℝ) ≤ (x : ℝ) := by exact_mod_cast hx
  have c0 : (0 : ℝ) ≤ ((cut x : ℚ) : ℝ) := by exact_mod_cast cut_nonneg x
  have b1 : ((cut x : ℚ) : ℝ) ≤ Real.sqrt x := by
    refine Real.le_sqrt_of_sq_le ?_
    exact_mod_cast cut_sq_le hx
  have b2 : Real.sqrt x ≤ ((cut x : ℚ) : ℝ) + 1 / 2 ^ 200 := by
    refine Real.sqrt_le_iff.mpr ⟨by positivity, ?_⟩
    have := lt_cut_sq x
    have h : ((x : ℚ) : ℝ) < (((cut x + 1 / 2 ^ 200) ^ 2 : ℚ) : ℝ) := by exact_mod_cast this
    push_cast at h
    exact le_of_lt h
  have r1 : ((cut x : ℚ) : ℝ) ≤ (r : ℝ) := by exact_mod_cast h1
  have r2 : (r : ℝ) < ((cut x : ℚ) : ℝ) + 1 / 2 ^ 200 := by
    have h : ((r : ℚ) : ℝ) < ((cut x + 1 / 2 ^ 200 : ℚ) : ℝ) := by exact_mod_cast h2
    push_cast at h
    exact h
  have hf := fl_rel r
  rw [abs_of_nonneg h0] at hf
  have hf' : |((fl r : ℚ) : ℝ) - (r : ℝ)| ≤ (r : ℝ) / 2 ^ 24 + 1 / 2 ^ 150 := by
    have h : ((|fl r - r| : ℚ) : ℝ) ≤ ((r / 2 ^ 24 + 1 / 2 ^ 150 : ℚ) : ℝ) := by exact_mod_cast hf
    push_cast at h
    exact h
  rw [e]
  rw [abs_le] at hf' ⊢
  have n1 : (1 : ℝ) / 2 ^ 200 + 1 / 2 ^ 200 / 2 ^ 24 + 1 / 2 ^ 150 ≤ 1 / 2 ^ 149 := by norm_num
  have n2 : (0 : ℝ) ≤ 1 / 2 ^ 200 / 2 ^ 24 := by norm_num
  have d1 : (r : ℝ) / 2 ^ 24 ≤ Real.sqrt x / 2 ^ 24 + 1 / 2 ^ 200 / 2 ^ 24 := by
    rw [← add_div]
    exact div_le_div_of_nonneg_right (by linarith) (by positivity)
  constructor <;> linarith [hf'.1, hf'.2]

/-! ## One segment -/

theorem Con.add_bounds (k : Con) {x y : ℚ} (hx : 0 ≤ x) (hy : 0 ≤ y) (hx' : x ≤ 2 ^ 28) (hy' : y ≤ 2 ^ 28) :
    0 ≤ k.add x y ∧ k.add x y ≤ 2 ^ 29 := by
  have f28 : fl (2 ^ 28) = 2 ^ 28 := by decide +kernel
  have f29 : fl (2 ^ 29) = 2 ^ 29 := by decide +kernel
  have fx : 0 ≤ fl x ∧ fl x ≤ 2 ^ 28 := ⟨fl_nonneg hx, by rw [← f28]; exact fl_mono hx'⟩
  have fy : 0 ≤ fl y ∧ fl y ≤ 2 ^ 28 := ⟨fl_nonneg hy, by rw [← f28]; exact fl_mono hy'⟩
  have key : ∀ a b : ℚ, 0 ≤ a ∧ a ≤ 2 ^ 28 → 0 ≤ b ∧ b ≤ 2 ^ 28 → 0 ≤ fl (a + b) ∧ fl (a + b) ≤ 2 ^ 29 := by
    intro a b ha hb
    refine ⟨fl_nonneg (by linarith), ?_⟩
    rw [← f29]
    refine fl_mono ?_
    have : (2 : ℚ) ^ 29 = 2 ^ 28 + 2 ^ 28 := by norm_num
    rw [this]
    linarith
  cases k
  · exact key _ _ fx fy
  · exact key _ _ ⟨hx, hx'⟩ fy
  · exact key _ _ fx ⟨hy, hy'⟩

theorem fl_abs_int {x : ℚ} {B : ℤ} (hB : 0 ≤ B) (hB' : B ≤ 2 ^ 24) (h : |x| ≤ B) : |fl x| ≤ B := by
  rw [abs_le] at *
  refine ⟨?_, fl_le_int (by rw [abs_of_nonneg hB]; exact hB') h.2⟩
  have := int_le_fl (x := x) (m := -B) (by rw [abs_neg, abs_of_nonneg hB]; exact hB')
    (by push_cast; exact h.1)
  push_cast at this
  exact this

theorem diff_bound {r : Nat} (hr : r ≤ 2 ^ 14) {a b : ℚ} (ha : -(r : ℚ) / 2 ≤ a ∧ a ≤ (r : ℚ) / 2)
    (hb : -(r : ℚ) / 2 ≤ b ∧ b ≤ (r : ℚ) / 2) :
    0 ≤ fl (b - a) * fl (b - a) ∧ fl (b - a) * fl (b - a) ≤ 2 ^ 28 := by
  refine ⟨mul_self_nonneg _, ?_⟩
  have hrq : (r : ℚ) ≤ 16384 := by exact_mod_cast hr
  have := fl_abs_int (x := b - a) (B := 16384) (by norm_num) (by norm_num) (by
    rw [abs_le]
    push_cast
    constructor <;> linarith [ha.1, ha.2, hb.1, hb.2])
  push_cast at this
  rw [← abs_mul_abs_self]
  calc |fl (b - a)| * |fl (b - a)| ≤ 16384 * 16384 := mul_le_mul this this (abs_nonneg _) (by norm_num)
    _ ≤ 2 ^ 28 := by norm_num

/-- A length is a float from `0` to `2¹⁵`. -/
theorem lenF_float (k : Con) {rx rz : Nat} (hx : rx ≤ 2 ^ 14) (hz : rz ≤ 2 ^ 14) {P Q : ℚ × ℚ}
    (hP : KeptF rx rz P) (hQ : KeptF rx rz Q) :
    0 ≤ lenF k P Q ∧ lenF k P Q ≤ 2 ^ 15 ∧ fl (lenF k P Q) = lenF k P Q := by
  have d1 := diff_bound hx hP.1 hQ.1
  have d2 := diff_bound hz hP.2 hQ.2
  have hb := Con.add_bounds k d1.1 d2.1 d1.2 d2.2
  refine ⟨sqrtF_nonneg hb.1, ?_, sqrtF_float hb.1⟩
  refine sqrtF_le hb.1 (by norm_num) (2 ^ 215) (by norm_num) (by decide +kernel) (le_trans hb.2 (by norm_num))

/-! ## Accuracy of a length -/

theorem Con.add_err (k : Con) {x y : ℚ} (hx : 0 ≤ x) (hy : 0 ≤ y) :
    |k.add x y - (x + y)| ≤ 3 / 2 ^ 24 * (x + y) + 1 / 2 ^ 147 := by
  have key : ∀ a b : ℚ, 0 ≤ a → 0 ≤ b → |a - x| ≤ x / 2 ^ 24 + 1 / 2 ^ 150 →
      |b - y| ≤ y / 2 ^ 24 + 1 / 2 ^ 150 → |fl (a + b) - (x + y)| ≤ 3 / 2 ^ 24 * (x + y) + 1 / 2 ^ 147 := by
    intro a b ha hb h1 h2
    have h3 := fl_rel (a + b)
    rw [abs_of_nonneg (add_nonneg ha hb)] at h3
    rw [abs_le] at h1 h2 h3 ⊢
    have n : (1 : ℚ) / 2 ^ 147 = 8 * (1 / 2 ^ 150) := by norm_num
    have n0 : (0 : ℚ) < 1 / 2 ^ 150 := by norm_num
    rw [n]
    generalize (1 : ℚ) / 2 ^ 150 = η at *
    norm_num at h1 h2 h3 ⊢
    constructor <;> linarith [h1.1, h1.2, h2.1, h2.2, h3.1, h3.2]
  have ex : ∀ z : ℚ, 0 ≤ z → |fl z - z| ≤ z / 2 ^ 24 + 1 / 2 ^ 150 := fun z hz => by
    have := fl_rel z
    rwa [abs_of_nonneg hz] at this
  have e0 : ∀ z : ℚ, 0 ≤ z → |z - z| ≤ z / 2 ^ 24 + 1 / 2 ^ 150 := fun z hz => by
    rw [sub_self, abs_zero]; positivity
  cases k
  · exact key _ _ (fl_nonneg hx) (fl_nonneg hy) (ex x hx) (ex y hy)
  · exact key _ _ hx (fl_nonneg hy) (e0 x hx) (ex y hy)
  · exact key _ _ (fl_nonneg hx) hy (ex x hx) (e0 y hy)

theorem sqrt_near {a b a' b' c t : ℝ} (ht : 0 ≤ t) (hc : 0 ≤ c) (ha : |a'| ≤ c * |a| + t) (hb : |b'| ≤ c * |b| + t) :
    Real.sqrt (a' ^ 2 + b' ^ 2) ≤ c * Real.sqrt (a ^ 2 + b ^ 2) + 2 * t := by
  have hL : 0 ≤ Real.sqrt (a ^ 2 + b ^ 2) := Real.sqrt_nonneg _
  have hS : Real.sqrt (a ^ 2 + b ^ 2) ^ 2 = a ^ 2 + b ^ 2 := Real.sq_sqrt (by positivity)
  have h1 : |a| ≤ Real.sqrt (a ^ 2 + b ^ 2) := Real.abs_le_sqrt (by nlinarith [sq_nonneg b])
  have h2 : |b| ≤ Real.sqrt (a ^ 2 + b ^ 2) := Real.abs_le_sqrt (by nlinarith [sq_nonneg a])
  generalize Real.sqrt (a ^ 2 + b ^ 2) = L at *
  refine Real.sqrt_le_iff.mpr ⟨by positivity, ?_⟩
  have e1 : a' ^ 2 ≤ (c * |a| + t) ^ 2 := by
    rw [← sq_abs a']; exact pow_le_pow_left₀ (abs_nonneg _) ha 2
  have e2 : b' ^ 2 ≤ (c * |b| + t) ^ 2 := by
    rw [← sq_abs b']; exact pow_le_pow_left₀ (abs_nonneg _) hb 2
  have e3 : |a| ^ 2 + |b| ^ 2 = L ^ 2 := by rw [sq_abs, sq_abs, hS]
  have e4 : c * t * |a| ≤ c * t * L := mul_le_mul_of_nonneg_left h1 (by positivity)
  have e5 : c * t * |b| ≤ c * t * L := mul_le_mul_of_nonneg_left h2 (by positivity)
  calc a' ^ 2 + b' ^ 2 ≤ (c * |a| + t) ^ 2 + (c * |b| + t) ^ 2 := add_le_add e1 e2
    _ = c ^ 2 * (|a| ^ 2 + |b| ^ 2) + 2 * (c * t * |a|) + 2 * (c * t * |b|) + 2 * t ^ 2 := by ring
    _ ≤ c ^ 2 * L ^ 2 + 2 * (c * t * L) + 2 * (c * t * L) + 4 * t ^ 2 := by
        rw [e3]; nlinarith [sq_nonneg t]
    _ = (c * L + 2 * t) ^ 2 := by ring

/-- A length is that of the segment up to `2⁻²¹`, relatively. -/
theorem lenF_near (k : Con) (P Q : ℚ × ℚ) :
    |((lenF k P Q : ℚ) : ℝ) - Real.sqrt (((Q.1 - P.1 : ℚ) : ℝ) ^ 2 + ((Q.2 - P.2 : ℚ) : ℝ) ^ 2)| ≤
      Real.sqrt (((Q.1 - P.1 : ℚ) : ℝ) ^ 2 + ((Q.2 - P.2 : ℚ) : ℝ) ^ 2) / 2 ^ 21 + 1 / 2 ^ 70 := by
  have cast : ∀ z : ℚ, |((fl z : ℚ) : ℝ) - (z : ℝ)| ≤ |(z : ℝ)| / 2 ^ 24 + 1 / 2 ^ 150 := fun z => by
    have h : ((|fl z - z| : ℚ) : ℝ) ≤ ((|z| / 2 ^ 24 + 1 / 2 ^ 150 : ℚ) : ℝ) := by exact_mod_cast fl_rel z
    push_cast at h
    exact h
  unfold lenF
  generalize Q.1 - P.1 = a
  generalize Q.2 - P.2 = b
  have ca := cast a
  have cb := cast b
  have hp1 : 0 ≤ fl a * fl a := mul_self_nonneg _
  have hp2 : 0 ≤ fl b * fl b := mul_self_nonneg _
  have hv := Con.add_err k hp1 hp2
  have hv0 : 0 ≤ k.add (fl a * fl a) (fl b * fl b) := by
    cases k
    · exact fl_nonneg (add_nonneg (fl_nonneg hp1) (fl_nonneg hp2))
    · exact fl_nonneg (add_nonneg hp1 (fl_nonneg hp2))
    · exact fl_nonneg (add_nonneg (fl_nonneg hp1) hp2)
  have hs := sqrtF_err hv0
  generalize sqrtF (k.add (fl a * fl a) (fl b * fl b)) = S at hs ⊢
  have hv' : |((k.add (fl a * fl a) (fl b * fl b) : ℚ) : ℝ) - (((fl a : ℚ) : ℝ) ^ 2 + ((fl b : ℚ) : ℝ) ^ 2)| ≤
      3 / 2 ^ 24 * (((fl a : ℚ) : ℝ) ^ 2 + ((fl b : ℚ) : ℝ) ^ 2) + 1 / 2 ^ 147 := by
    have h : ((|k.add (fl a * fl a) (fl b * fl b) - (fl a * fl a + fl b * fl b)| : ℚ) : ℝ) ≤
      ((3 / 2 ^ 24 * (fl a * fl a + fl b * fl b) + 1 / 2 ^ 147 : ℚ) : ℝ) := by exact_mod_cast hv
    push_cast at h
    rw [pow_two, pow_two]
    exact h
  have hv0' : (0 : ℝ) ≤ ((k.add (fl a * fl a) (fl b * fl b) : ℚ) : ℝ) := by exact_mod_cast hv0
  generalize ((k.add (fl a * fl a) (fl b * fl b) : ℚ) : ℝ) = v at hs hv' hv0'
  generalize ((fl a : ℚ) : ℝ) = a' at *
  generalize ((fl b : ℚ) : ℝ) = b' at *
  generalize (a : ℝ) = A at *
  generalize (b : ℝ) = B at *
  have up := sqrt_near (a := A) (b := B) (a' := a') (b' := b') (c := 1 + 1 / 2 ^ 24) (t := 1 / 2 ^ 150)
    (by positivity) (by positivity)
    (by have := abs_sub_abs_le_abs_sub a' A; linarith) (by have := abs_sub_abs_le_abs_sub b' B; linarith)
  have lo := sqrt_near (a := a') (b := b') (a' := (1 - 1 / 2 ^ 24) * A) (b' := (1 - 1 / 2 ^ 24) * B) (c := 1)
    (t := 1 / 2 ^ 150) (by positivity) (by positivity)
    (by
      have := abs_sub_abs_le_abs_sub A a'
      rw [abs_sub_comm] at this
      rw [abs_mul, abs_of_nonneg (by norm_num : (0 : ℝ) ≤ 1 - 1 / 2 ^ 24)]
      linarith)
    (by
      have := abs_sub_abs_le_abs_sub B b'
      rw [abs_sub_comm] at this
      rw [abs_mul, abs_of_nonneg (by norm_num : (0 : ℝ) ≤ 1 - 1 / 2 ^ 24)]
      linarith)
  have lo' : Real.sqrt (((1 - 1 / 2 ^ 24) * A) ^ 2 + ((1 - 1 / 2 ^ 24) * B) ^ 2) =
      (1 - 1 / 2 ^ 24) * Real.sqrt (A ^ 2 + B ^ 2) := by
    rw [mul_pow, mul_pow, ← mul_add, Real.sqrt_mul (by positivity), Real.sqrt_sq (by norm_num)]
  rw [lo'] at lo
  have hL : 0 ≤ Real.sqrt (A ^ 2 + B ^ 2) := Real.sqrt_nonneg _
  generalize Real.sqrt (A ^ 2 + B ^ 2) = L at *
  have hM : 0 ≤ Real.sqrt (a' ^ 2 + b' ^ 2) := Real.sqrt_nonneg _
  have hM2 : Real.sqrt (a' ^ 2 + b' ^ 2) ^ 2 = a' ^ 2 + b' ^ 2 := Real.sq_sqrt (by positivity)
  rw [← hM2] at hv'
  generalize Real.sqrt (a' ^ 2 + b' ^ 2) = M at *
  have hV : 0 ≤ Real.sqrt v := Real.sqrt_nonneg _
  have hV2 : Real.sqrt v ^ 2 = v := Real.sq_sqrt hv0'
  have u1 : Real.sqrt v ≤ (1 + 2 / 2 ^ 24) * M + 1 / 2 ^ 73 := by
    refine Real.sqrt_le_iff.mpr ⟨by positivity, ?_⟩
    have h := (abs_le.mp hv').2
    have n1 : ((1 : ℝ) / 2 ^ 73) ^ 2 = 2 * (1 / 2 ^ 147) := by norm_num
    have n2 : (0 : ℝ) ≤ 1 / 2 ^ 147 := by norm_num
    have e : ((1 + 2 / 2 ^ 24) * M + 1 / 2 ^ 73) ^ 2 =
      (1 + 2 / 2 ^ 24) ^ 2 * M ^ 2 + 2 * ((1 + 2 / 2 ^ 24) * M * (1 / 2 ^ 73)) + (1 / 2 ^ 73) ^ 2 := by ring
    have h2 : 0 ≤ (1 + 2 / 2 ^ 24) * M * (1 / 2 ^ 73) := by positivity
    have h3 : (1 + 3 / 2 ^ 24) * M ^ 2 ≤ (1 + 2 / 2 ^ 24) ^ 2 * M ^ 2 :=
      mul_le_mul_of_nonneg_right (by norm_num) (by positivity)
    rw [e, n1]
    linarith
  have l1 : (1 - 2 / 2 ^ 24) * M ≤ Real.sqrt v + 1 / 2 ^ 73 := by
    have h := (abs_le.mp hv').1
    refine le_of_sq_le_sq ?_ (by positivity)
    have n1 : ((1 : ℝ) / 2 ^ 73) ^ 2 = 2 * (1 / 2 ^ 147) := by norm_num
    have n2 : (0 : ℝ) ≤ 1 / 2 ^ 147 := by norm_num
    have e : (Real.sqrt v + 1 / 2 ^ 73) ^ 2 = v + 2 * (Real.sqrt v * (1 / 2 ^ 73)) + (1 / 2 ^ 73) ^ 2 := by
      have e' : (Real.sqrt v + 1 / 2 ^ 73) ^ 2 =
        Real.sqrt v ^ 2 + 2 * (Real.sqrt v * (1 / 2 ^ 73)) + (1 / 2 ^ 73) ^ 2 := by ring
      rw [e', hV2]
    have h2 : 0 ≤ Real.sqrt v * (1 / 2 ^ 73) := by positivity
    have h3 : (1 - 2 / 2 ^ 24) ^ 2 * M ^ 2 ≤ (1 - 3 / 2 ^ 24) * M ^ 2 :=
      mul_le_mul_of_nonneg_right (by norm_num) (by positivity)
    rw [mul_pow, e, n1]
    linarith
  generalize Real.sqrt v = V at *
  rw [abs_le] at hs ⊢
  have n3 : (1 : ℝ) / 2 ^ 150 ≤ 1 / 2 ^ 75 := by norm_num
  have n4 : (1 : ℝ) / 2 ^ 149 ≤ 1 / 2 ^ 75 := by norm_num
  have n5 : (1 : ℝ) / 2 ^ 73 = 4 * (1 / 2 ^ 75) := by norm_num
  have n6 : (1 : ℝ) / 2 ^ 70 = 32 * (1 / 2 ^ 75) := by norm_num
  have n7 : (0 : ℝ) < 1 / 2 ^ 75 := by norm_num
  rw [n5] at u1 l1
  rw [n6]
  generalize (1 : ℝ) / 2 ^ 75 = ε at *
  generalize (1 : ℝ) / 2 ^ 150 = ε1 at *
  generalize (1 : ℝ) / 2 ^ 149 = ε2 at *
  norm_num at hs u1 l1 up lo ⊢
  constructor <;> linarith [hs.1, hs.2]

/-! ## All segments of a ray -/

theorem calcSegsF_ind (k : Con) (rx rz : Nat) (l : List (ℚ × ℚ)) :
    (calcSegsF k rx rz l).map Prod.fst = calcIndF rx rz l := by
  fun_induction calcIndF rx rz l with
  | case1 => rfl
  | case2 => rfl
  | case3 P Q rest ih => rw [calcSegsF, List.map_cons, ih]

theorem calcSegsF_len {k : Con} {rx rz : Nat} {l : List (ℚ × ℚ)} {e : Int × ℚ} (h : e ∈ calcSegsF k rx rz l) :
    ∃ P Q, P ∈ l ∧ Q ∈ l ∧ e.2 = lenF k P Q := by
  fun_induction calcSegsF k rx rz l with
  | case1 => cases h
  | case2 => cases h
  | case3 P Q rest ih =>
    rcases List.mem_cons.mp h with h | h
    · exact ⟨P, Q, by simp, by simp, by rw [h]⟩
    · obtain ⟨P', Q', h1, h2, h3⟩ := ih h
      exact ⟨P', Q', List.mem_cons_of_mem _ h1, List.mem_cons_of_mem _ h2, h3⟩

theorem calcSegsF_length (k : Con) (rx rz : Nat) (l : List (ℚ × ℚ)) :
    (calcSegsF k rx rz l).length = l.length - 1 := by
  fun_induction calcSegsF k rx rz l with
  | case1 => rfl
  | case2 => rfl
  | case3 P Q rest ih => rw [List.length_cons, ih]; simp

theorem segsF_eq (m : Mode) (k : Con) (caps : Caps) (q : Int) (rx rz : Nat) (yi sn cs : ℚ) :
    segsF m k caps q rx rz yi sn cs =
      if (aListF m rx rz yi sn cs).length ≤ caps.ab ∧ (bListF m rx rz yi sn cs).length ≤ caps.ab ∧
          (aListF m rx rz yi sn cs).length + (bListF m rx rz yi sn cs).length ≤ caps.coor ∧
          (aListF m rx rz yi sn cs).length + (bListF m rx rz yi sn cs).length - 1 ≤ caps.seg
      then some (calcSegsF k rx rz
        (sortIntersections q (aListF m rx rz yi sn cs) (bListF m rx rz yi sn cs)))
      else none := by
  unfold segsF
  rw [trimLoop_eq, trimLoop_eq]
  show (do
    let as ← (if (aListF m rx rz yi sn cs).length ≤ caps.ab
      then some (aListF m rx rz yi sn cs) else none)
    let bs ← (if (bListF m rx rz yi sn cs).length ≤ caps.ab
      then some (bListF m rx rz yi sn cs) else none)
    if as.length + bs.length ≤ caps.coor ∧ as.length + bs.length - 1 ≤ caps.seg then
      some (calcSegsF k rx rz (sortIntersections q as bs))
    else none) = _
  by_cases h1 : (aListF m rx rz yi sn cs).length ≤ caps.ab
  · by_cases h2 : (bListF m rx rz yi sn cs).length ≤ caps.ab
    · simp [h1, h2]
    · simp [h1, h2]
  · simp [h1]

/-- The segments have the indices of `traceF`. -/
theorem segsF_trace (m : Mode) (k : Con) (caps : Caps) (q : Int) (rx rz : Nat) (yi sn cs : ℚ) :
    (segsF m k caps q rx rz yi sn cs).map (fun l => l.map Prod.fst) = traceF m caps q rx rz yi sn cs := by
  rw [segsF_eq, traceF_eq]
  split
  · rw [Option.map_some, calcSegsF_ind]
  · rfl

/-- **C183, one ray.**  The ray tracer in `float` arithmetic writes inside its buffers fewer than `rx + rz`
segments, each with the index of a pixel of the image and a length that is a finite float, not negative
and at most `2¹⁵`; it is the distance of two points of the image up to a relative error of `2⁻²¹`. -/
theorem segsF_ok (m : Mode) (k : Con) (q : Int) {rx rz : Nat} {yi sn cs : ℚ} (hrx : 0 < rx) (hrz : 0 < rz)
    (h : rx + rz ≤ 2 ^ 14) (hy : |yi| ≤ 16384) (hs : |sn| ≤ 1) (hc : |cs| ≤ 1) :
    ∃ l, segsF m k (capsRecon rx rz) q rx rz yi sn cs = some l ∧ l.length < rx + rz ∧ ∀ e ∈ l,
      (0 ≤ e.1 ∧ e.1 < (rx * rz : Nat)) ∧ (0 ≤ e.2 ∧ e.2 ≤ 2 ^ 15 ∧ fl e.2 = e.2) ∧
      ∃ P Q, KeptF rx rz P ∧ KeptF rx rz Q ∧
        |((e.2 : ℚ) : ℝ) - Real.sqrt (((Q.1 - P.1 : ℚ) : ℝ) ^ 2 + ((Q.2 - P.2 : ℚ) : ℝ) ^ 2)| ≤
          Real.sqrt (((Q.1 - P.1 : ℚ) : ℝ) ^ 2 + ((Q.2 - P.2 : ℚ) : ℝ) ^ 2) / 2 ^ 21 + 1 / 2 ^ 70 := by
  have hle := crossingsF_le m hrx hrz h hy hs hc
  have hperm := Tomopy.Ray.sortIntersections_perm q (aListF m rx rz yi sn cs) (bListF m rx rz yi sn cs)
  rw [segsF_eq, if_pos (by simp only [capsRecon]; omega)]
  refine ⟨_, rfl, ?_, fun e he => ?_⟩
  · rw [calcSegsF_length, hperm.length_eq, List.length_append]
    omega
  have hk : ∀ T ∈ sortIntersections q (aListF m rx rz yi sn cs) (bListF m rx rz yi sn cs),
      KeptF rx rz T := by
    intro T hT
    rcases List.mem_append.mp (hperm.mem_iff.mp hT) with h | h
    · exact (mem_aListF (by omega) (by omega) h).1
    · exact (mem_bListF (by omega) (by omega) h).1
  obtain ⟨P, Q, hP, hQ, e2⟩ := calcSegsF_len he
  refine ⟨index_mem m q yi sn cs (by omega) (by omega)
    (by rw [← calcSegsF_ind k]; exact List.mem_map_of_mem he), ?_, P, Q, hk P hP, hk Q hQ, ?_⟩
  · rw [e2]
    exact lenF_float k (by omega) (by omega) (hk P hP) (hk Q hQ)
  · rw [e2]
    exact lenF_near k P Q

/-- **C183, the geometry of a call.**  It meets what the theorems on the loops in `float` arithmetic ask of
the geometry: `InGrid` (C181), `Inside` (C182), `LenOk` and the bounds of `OwnPositive` (C180), and rays of
fewer than 16383 segments (C145). -/
theorem geomF_ok (m : Mode) (k : Con) {rx rz dy dt dx : Nat} {center : Nat → ℚ} {quadrant : Nat → Int}
    {sn cs : Nat → ℚ} (hrx : 0 < rx) (hrz : 0 < rz) (h : rx + rz ≤ 2 ^ 14) (hdx : dx ≤ 2 ^ 13)
    (hcen : ∀ s < dy, 0 ≤ center s ∧ center s ≤ dx) (hs : ∀ p, |sn p| ≤ 1) (hc : ∀ p, |cs p| ≤ 1) :
    InGrid ⟨dy, dt, dx, rx * rz⟩ (geomF m k rx rz dx center quadrant sn cs) ∧
    Inside ⟨dy, dt, dx, rx * rz⟩ (geomF m k rx rz dx center quadrant sn cs) ∧
    ∀ s < dy, ∀ p < dt, ∀ d < dx, (geomF m k rx rz dx center quadrant sn cs s p d).length < rx + rz ∧
      ∀ e ∈ geomF m k rx rz dx center quadrant sn cs s p d, 0 ≤ e.2 ∧ e.2 ≤ 2 ^ 15 ∧ fl e.2 = e.2 := by
  have key : ∀ s < dy, ∀ p, ∀ d < dx, (geomF m k rx rz dx center quadrant sn cs s p d).length < rx + rz ∧
      ∀ e ∈ geomF m k rx rz dx center quadrant sn cs s p d, e.1 < rx * rz ∧
        0 ≤ e.2 ∧ e.2 ≤ 2 ^ 15 ∧ fl e.2 = e.2 := by
    intro s hsy p d hd
    obtain ⟨l, hl, hlen, hm⟩ := segsF_ok m k (quadrant p) hrx hrz h
      (rayYF_bound hdx hd (hcen s hsy).1 (hcen s hsy).2) (hs p) (hc p)
    unfold geomF
    rw [hl, Option.getD_some, List.length_map]
    refine ⟨hlen, fun e he => ?_⟩
    obtain ⟨e', he', rfl⟩ := List.mem_map.mp he
    obtain ⟨h1, h2, -⟩ := hm e' he'
    exact ⟨by dsimp only; omega, h2⟩
  refine ⟨fun s hs p _ d hd e he => ?_, fun s hs p _ d hd e he => ((key s hs p d hd).2 e he).1,
    fun s hs p _ d hd => ⟨(key s hs p d hd).1, fun e he => ((key s hs p d hd).2 e he).2⟩⟩
  exact ⟨((key s hs p d hd).2 e he).1, ((key s hs p d hd).2 e he).2.1⟩

/-- **C183, without assumptions on segments.**  The back-projection of data that are not negative, along the
rays of the float ray tracer, is not negative and nowhere NaN. -/
theorem fbpF_traced {f : Bool} (m : Mode) (k : Con) {rx rz dy dt dx : Nat} {center : Nat → ℚ}
    {quadrant : Nat → Int} {sn cs : Nat → ℚ} (hrx : 0 < rx) (hrz : 0 < rz) (h : rx + rz ≤ 2 ^ 14)
    (hdx : dx ≤ 2 ^ 13) (hcen : ∀ s < dy, 0 ≤ center s ∧ center s ≤ dx) (hs : ∀ p, |sn p| ≤ 1)
    (hc : ∀ p, |cs p| ≤ 1) {data : Nat → ℚ} (hd : ∀ i, 0 ≤ data i) {s n : Nat} (hsy : s < dy)
    (hn : n < rx * rz) :
    Num (fbpF f ⟨dy, dt, dx, rx * rz⟩ (geomF m k rx rz dx center quadrant sn cs) (fun i => .fin (data i))
      (fun _ => .fin 0) (n + s * (rx * rz))) :=
  fbpF_sign (geomF_ok m k hrx hrz h hdx hcen hs hc).1 hd hsy hn

/-- **C183, chunks.**  For the rays of the float ray tracer, any chunk of slices is reconstructed by `osem`
as in the call on all slices, bit for bit. -/
theorem osemF_traced {om : OMode} (m : Mode) (k : Con) {rx rz dy dt dx num_iter nb c kk : Nat} {ind : List Nat}
    {center : Nat → ℚ} {quadrant : Nat → Int} {sn cs : Nat → ℚ} (hrx : 0 < rx) (hrz : 0 < rz)
    (h : rx + rz ≤ 2 ^ 14) (hdx : dx ≤ 2 ^ 13) (hcen : ∀ s < dy, 0 ≤ center s ∧ center s ≤ dx)
    (hs : ∀ p, |sn p| ≤ 1) (hc : ∀ p, |cs p| ≤ 1) (hb : Tomopy.Iter.BlockArgs dt nb ind) (hck : c + kk ≤ dy)
    (hk : 0 < kk) (data recon : MemF) :
    ∃ o o', osemF om ⟨dy, dt, dx, rx * rz⟩ (geomF m k rx rz dx center quadrant sn cs) data num_iter nb ind recon =
        some o ∧
      osemF om ⟨kk, dt, dx, rx * rz⟩ (geomF m k rx rz dx (fun s => center (c + s)) quadrant sn cs)
        (fun n => data (n + c * (dt * dx))) num_iter nb ind (fun n => recon (n + c * (rx * rz))) = some o' ∧
      ∀ s < kk, ∀ n < rx * rz, o' (n + s * (rx * rz)) = o (n + (c + s) * (rx * rz)) :=
  (osemF_alone om num_iter nb ind).chunk (D := ⟨dy, dt, dx, rx * rz⟩)
    (geomF_ok m k hrx hrz h hdx hcen hs hc).2.1 hb hck hk hb data recon

/-! ## Examples -/

/-- The root of `2` and of an exact square; and a length that is rounded. -/
example : sqrtF 2 = 11863283 / 2 ^ 23 ∧ sqrtF (9 / 4) = 3 / 2 ∧ sqrtF 0 = 0 ∧
    lenF .no (0, 0) (1, 1) = 11863283 / 2 ^ 23 := by
  decide +kernel

/-- A ray of slope about `1/3` through 4 × 4 pixels: six segments, next to each other. -/
example : geomF ⟨.no, .left, .right, .no, true, false⟩ .right 4 4 4 (fun _ => 2) (fun _ => 1)
      (fun _ => fl (3 / 10)) (fun _ => fl (19 / 20)) 0 0 1 =
    [(0, 4288507 / 8388608), (1, 9016863 / 16777216), (5, 4398469 / 4194304), (9, 4398469 / 4194304),
      (13, 11509325 / 16777216), (14, 12169107 / 33554432)] := by
  decide +kernel

/-- The arguments of this call are as the theorems ask. -/
example : InGrid ⟨1, 1, 4, 4 * 4⟩ (geomF ⟨.no, .left, .right, .no, true, false⟩ .right 4 4 4 (fun _ => 2)
      (fun _ => 1) (fun _ => fl (3 / 10)) (fun _ => fl (19 / 20))) :=
  (geomF_ok (dy := 1) (dt := 1) _ _ (by norm_num) (by norm_num) (by norm_num) (by norm_num)
    (fun _ _ => by norm_num) (fun _ => by decide +kernel) (fun _ => by decide +kernel)).1

end Tomopy.Fl
