import Verif.Fl.QuadModel
import Verif.Ray.Order
import Mathlib.Analysis.Real.Pi.Bounds
import Mathlib.Analysis.SpecialFunctions.Trigonometric.Basic

/-!
# `calc_quadrant` is right for every `float` angle, except just below zero
-/

set_option linter.unusedSectionVars false

namespace Tomopy.Fl

open Tomopy.Ray (cTrunc FlagOk)

/-! ## Neighbouring floats -/

/-- `x` is a `float`. -/
def IsFloat (x : ℚ) : Prop := fl x = x

theorem IsFloat.neg {x : ℚ} (h : IsFloat x) : IsFloat (-x) := by
  have hu : ulpExp (-x) = ulpExp x := by unfold ulpExp; rw [abs_neg]
  refine fl_grid (n := -rne (x / 2 ^ ulpExp x)) ?_
  have h' : (rne (x / 2 ^ ulpExp x) : ℚ) * 2 ^ ulpExp x = x := h
  rw [hu]
  push_cast
  linarith

/-- There is no `float` between `n * 2^e` and `(n + 1) * 2^e` if `n` has 24 bits. -/
theorem float_gap {x : ℚ} (h : IsFloat x) (n : ℤ) (e : ℤ) (hn : 2 ^ 23 ≤ n) :
    x ≤ n * 2 ^ e ∨ (n + 1) * 2 ^ e ≤ x := by
  by_contra hc
  rw [not_or, not_le, not_le] at hc
  obtain ⟨h1, h2⟩ := hc
  have hp := two_zpow_pos e
  have hnq : (2 : ℚ) ^ 23 ≤ n := by exact_mod_cast hn
  have hx : (2 : ℚ) ^ (e + 23) ≤ |x| := by
    rw [abs_of_pos (lt_of_le_of_lt (by positivity) h1), pow_split]
    have := mul_le_mul_of_nonneg_right hnq hp.le
    norm_num at this ⊢
    linarith
  have hx0 : 0 < |x| := lt_of_lt_of_le (two_zpow_pos _) hx
  have hE : e ≤ ulpExp x := by
    have : e + 23 ≤ Int.log 2 |x| :=
      (Int.zpow_le_iff_le_log (b := 2) (by norm_num) hx0).mp (by exact_mod_cast hx)
    unfold ulpExp
    have := le_max_left (Int.log 2 |x|) (-126)
    omega
  obtain ⟨k, hk⟩ : ∃ k : ℤ, x = k * 2 ^ e := by
    refine ⟨rne (x / 2 ^ ulpExp x) * 2 ^ (ulpExp x - e).toNat, ?_⟩
    have h' : (rne (x / 2 ^ ulpExp x) : ℚ) * 2 ^ ulpExp x = x := h
    have h3 : (2 : ℚ) ^ ulpExp x = 2 ^ (ulpExp x - e).toNat * 2 ^ e := by
      rw [← zpow_natCast, ← zpow_add₀ (by norm_num)]
      congr 1
      omega
    generalize rne (x / 2 ^ ulpExp x) = m at *
    rw [h3] at h'
    push_cast
    rw [mul_assoc]
    exact h'.symm
  rw [hk] at h1 h2
  have k1 : (n : ℚ) < k := lt_of_mul_lt_mul_right h1 hp.le
  have k2 : (k : ℚ) < n + 1 := lt_of_mul_lt_mul_right h2 hp.le
  have k1' : n < k := by exact_mod_cast k1
  have k2' : k < n + 1 := by exact_mod_cast k2
  omega

/-! ## Monotonicity -/

theorem cTrunc_mono {x y : ℚ} (h : x ≤ y) : cTrunc x ≤ cTrunc y := by
  unfold cTrunc
  split
  · rename_i hx
    rw [if_pos (le_trans hx h)]
    exact Int.floor_le_floor h
  · rename_i hx
    split
    · rename_i hy
      refine le_trans (Int.ceil_le.mpr ?_) (Int.floor_nonneg.mpr hy)
      simpa using (not_le.mp hx).le
    · exact Int.ceil_le_ceil h

theorem ipiF_pos : 0 < ipiF := by decide +kernel

theorem thetaI_mono {x y : ℚ} (h : x ≤ y) : thetaI x ≤ thetaI y :=
  cTrunc_mono (fl_mono (mul_le_mul_of_nonneg_right h ipiF_pos.le))

theorem cTrunc_zero : cTrunc (0 : ℚ) = 0 := by decide +kernel

theorem thetaI_nonneg {x : ℚ} (h : 0 ≤ x) : 0 ≤ thetaI x := by
  have := cTrunc_mono (fl_nonneg (mul_nonneg h ipiF_pos.le))
  rwa [cTrunc_zero] at this

theorem wrapI_mono_neg {s t : Int} (h : s ≤ t) (ht : t < 0) : wrapI s ≤ wrapI t := by
  unfold wrapI
  rw [if_pos (by omega), if_pos ht]
  exact cTrunc_mono (by have : (s : ℚ) ≤ t := by exact_mod_cast h
                        linarith)

/-! ## The value of the flag from the integer angle -/

theorem piC_values : piC (1 / 2) = 4491579520914313 / 8388608 ∧ piC 1 = 4491579520914313 / 4194304 ∧
    piC (3 / 2) = 6737369281371469 / 4194304 ∧ piC 2 = 4491579520914313 / 2097152 := by
  decide +kernel

/-- The four ranges of the integer angle. -/
theorem flag_of_range {θ : ℚ} (h1 : int32 (thetaI θ) = true) (w : Int) (hw : wrapI (thetaI θ) = w) :
    (0 ≤ w ∧ w ≤ 535438003 → calcQuadrantF θ = some 1) ∧
    (535438004 ≤ w ∧ w ≤ 1070876007 → calcQuadrantF θ = some 0) ∧
    (1070876008 ≤ w ∧ w ≤ 1606314010 → calcQuadrantF θ = some 1) ∧
    (1606314011 ≤ w ∧ w ≤ 2147483647 → calcQuadrantF θ = some 0) := by
  obtain ⟨p1, p2, p3, _⟩ := piC_values
  unfold calcQuadrantF
  rw [h1, hw, p1, p2, p3]
  have cast : ∀ a b : Int, a ≤ b → (a : ℚ) ≤ b := fun a b h => by exact_mod_cast h
  refine ⟨fun h => ?_, fun h => ?_, fun h => ?_, fun h => ?_⟩ <;>
    have c1 := cast _ _ h.1 <;> have c2 := cast _ _ h.2 <;> push_cast at c1 c2 <;>
    rw [if_pos (by simp [int32]; omega)]
  · rw [if_pos (Or.inl ⟨h.1, by norm_num; linarith⟩)]
  · rw [if_neg]
    rintro (⟨_, hh⟩ | ⟨hh, _⟩) <;> norm_num at hh <;> linarith
  · rw [if_pos (Or.inr ⟨by norm_num; linarith, by norm_num; linarith⟩)]
  · rw [if_neg]
    rintro (⟨_, hh⟩ | ⟨_, hh⟩) <;> norm_num at hh <;> linarith

theorem int32_of {θ : ℚ} (h : |θ| ≤ 13176794 / 2 ^ 21) : int32 (thetaI θ) = true := by
  rw [abs_le] at h
  have h1 := thetaI_mono h.1
  have h2 := thetaI_mono h.2
  have v1 : thetaI (-(13176794 / 2 ^ 21)) = -2141751936 := by decide +kernel
  have v2 : thetaI (13176794 / 2 ^ 21) = 2141751936 := by decide +kernel
  rw [v1] at h1
  rw [v2] at h2
  simp only [int32, Bool.and_eq_true, decide_eq_true_eq]
  omega

/-- The `float` angles in `[0, 2π)` by quadrant: no `float` is between the bounds. -/
theorem float_quadrants {x : ℚ} (h : IsFloat x) (h1 : x < twoPiF) :
    x ≤ 13176794 / 2 ^ 23 ∨ (13176795 / 2 ^ 23 ≤ x ∧ x ≤ 13176794 / 2 ^ 22) ∨
    (13176795 / 2 ^ 22 ≤ x ∧ x ≤ 9882595 / 2 ^ 21) ∨
    (9882596 / 2 ^ 21 ≤ x ∧ x ≤ 13176794 / 2 ^ 21) := by
  have g1 := float_gap h 13176794 (-23) (by norm_num)
  have g2 := float_gap h 13176794 (-22) (by norm_num)
  have g3 := float_gap h 9882595 (-21) (by norm_num)
  have g4 := float_gap h 13176794 (-21) (by norm_num)
  have ht : twoPiF = 13176795 / 2 ^ 21 := by decide +kernel
  rw [ht] at h1
  norm_num at g1 g2 g3 g4 h1 ⊢
  rcases g1 with g1 | g1
  · exact Or.inl g1
  rcases g2 with g2 | g2
  · exact Or.inr (Or.inl ⟨g1, g2⟩)
  rcases g3 with g3 | g3
  · exact Or.inr (Or.inr (Or.inl ⟨g2, g3⟩))
  rcases g4 with g4 | g4
  · exact Or.inr (Or.inr (Or.inr ⟨g3, g4⟩))
  · linarith

/-- The flag of a `float` angle in `[0, 2π)`. -/
theorem quadrantF_nonneg {x : ℚ} (h : IsFloat x) (h0 : 0 ≤ x) (h1 : x < twoPiF) :
    (x ≤ 13176794 / 2 ^ 23 → calcQuadrantF x = some 1) ∧
    (13176795 / 2 ^ 23 ≤ x ∧ x ≤ 13176794 / 2 ^ 22 → calcQuadrantF x = some 0) ∧
    (13176795 / 2 ^ 22 ≤ x ∧ x ≤ 9882595 / 2 ^ 21 → calcQuadrantF x = some 1) ∧
    (9882596 / 2 ^ 21 ≤ x ∧ x ≤ 13176794 / 2 ^ 21 → calcQuadrantF x = some 0) := by
  have hx : |x| ≤ 13176794 / 2 ^ 21 := by
    rw [abs_of_nonneg h0]
    rcases float_quadrants h h1 with h | ⟨_, h⟩ | ⟨_, h⟩ | ⟨_, h⟩ <;> refine le_trans h ?_ <;> norm_num
  have hw : wrapI (thetaI x) = thetaI x := by
    unfold wrapI
    rw [if_neg (by have := thetaI_nonneg h0; omega)]
  obtain ⟨f1, f2, f3, f4⟩ := flag_of_range (int32_of hx) _ hw
  have v1 : thetaI (13176794 / 2 ^ 23) = 535437984 := by decide +kernel
  have v2 : thetaI (13176795 / 2 ^ 23) = 535438048 := by decide +kernel
  have v3 : thetaI (13176794 / 2 ^ 22) = 1070875968 := by decide +kernel
  have v4 : thetaI (13176795 / 2 ^ 22) = 1070876096 := by decide +kernel
  have v5 : thetaI (9882595 / 2 ^ 21) = 1606313856 := by decide +kernel
  have v6 : thetaI (9882596 / 2 ^ 21) = 1606314112 := by decide +kernel
  have v7 : thetaI (13176794 / 2 ^ 21) = 2141751936 := by decide +kernel
  refine ⟨fun h => f1 ⟨thetaI_nonneg h0, ?_⟩, fun h => f2 ⟨?_, ?_⟩, fun h => f3 ⟨?_, ?_⟩,
    fun h => f4 ⟨?_, ?_⟩⟩
  · have := thetaI_mono h; omega
  · have := thetaI_mono h.1; omega
  · have := thetaI_mono h.2; omega
  · have := thetaI_mono h.1; omega
  · have := thetaI_mono h.2; omega
  · have := thetaI_mono h.1; omega
  · have := thetaI_mono h.2; omega

/-- The flag of a negative `float` angle `-x` that is not truncated to zero. -/
theorem quadrantF_neg {x : ℚ} (h : IsFloat x) (h1 : x < twoPiF) (hn : thetaI (-x) < 0) :
    (x ≤ 13176794 / 2 ^ 23 → calcQuadrantF (-x) = some 0) ∧
    (13176795 / 2 ^ 23 ≤ x ∧ x ≤ 13176794 / 2 ^ 22 → calcQuadrantF (-x) = some 1) ∧
    (13176795 / 2 ^ 22 ≤ x ∧ x ≤ 9882595 / 2 ^ 21 → calcQuadrantF (-x) = some 0) ∧
    (9882596 / 2 ^ 21 ≤ x ∧ x ≤ 13176794 / 2 ^ 21 → calcQuadrantF (-x) = some 1) := by
  have h0 : 0 ≤ x := by
    by_contra hc
    have := thetaI_nonneg (x := -x) (by linarith)
    omega
  have hx : |(-x)| ≤ 13176794 / 2 ^ 21 := by
    rw [abs_neg, abs_of_nonneg h0]
    rcases float_quadrants h h1 with h | ⟨_, h⟩ | ⟨_, h⟩ | ⟨_, h⟩ <;> refine le_trans h ?_ <;> norm_num
  obtain ⟨f1, f2, f3, f4⟩ := flag_of_range (int32_of hx) _ rfl
  have up : ∀ y : ℚ, y ≤ x → thetaI (-y) < 0 → wrapI (thetaI (-x)) ≤ wrapI (thetaI (-y)) :=
    fun y hy ht => wrapI_mono_neg (thetaI_mono (by linarith)) ht
  have dn : ∀ y : ℚ, x ≤ y → wrapI (thetaI (-y)) ≤ wrapI (thetaI (-x)) :=
    fun y hy => wrapI_mono_neg (thetaI_mono (by linarith)) hn
  have top : wrapI (thetaI (-x)) ≤ wrapI (-1) := wrapI_mono_neg (by omega) (by norm_num)
  have v0 : wrapI (-1) = 2141752013 := by decide +kernel
  have v1 : wrapI (thetaI (-(13176794 / 2 ^ 23))) = 1606314030 := by decide +kernel
  have v2 : wrapI (thetaI (-(13176795 / 2 ^ 23))) = 1606313966 := by decide +kernel
  have v3 : wrapI (thetaI (-(13176794 / 2 ^ 22))) = 1070876046 := by decide +kernel
  have v4 : wrapI (thetaI (-(13176795 / 2 ^ 22))) = 1070875918 := by decide +kernel
  have v5 : wrapI (thetaI (-(9882595 / 2 ^ 21))) = 535438158 := by decide +kernel
  have v6 : wrapI (thetaI (-(9882596 / 2 ^ 21))) = 535437902 := by decide +kernel
  have v7 : wrapI (thetaI (-(13176794 / 2 ^ 21))) = 78 := by decide +kernel
  refine ⟨fun h => f4 ⟨?_, ?_⟩, fun h => f3 ⟨?_, ?_⟩, fun h => f2 ⟨?_, ?_⟩, fun h => f1 ⟨?_, ?_⟩⟩
  · have := dn _ h; omega
  · omega
  · have := dn _ h.2; omega
  · have := up _ h.1 (by decide +kernel); omega
  · have := dn _ h.2; omega
  · have := up _ h.1 (by decide +kernel); omega
  · have := dn _ h.2; omega
  · have := up _ h.1 (by decide +kernel); omega

/-! ## The signs of sine and cosine -/

open Real in
theorem sc_sin (φ : ℝ) : sin φ * cos φ = sin (2 * φ) / 2 := by rw [sin_two_mul]; ring

open Real in
/-- The sign of `sin * cos` of a positive `float` angle by quadrant. -/
theorem sc_sign {x : ℚ} (h0 : 0 < x) :
    (x ≤ 13176794 / 2 ^ 23 → 0 < sin (x : ℝ) * cos (x : ℝ)) ∧
    (13176795 / 2 ^ 23 ≤ x ∧ x ≤ 13176794 / 2 ^ 22 → sin (x : ℝ) * cos (x : ℝ) < 0) ∧
    (13176795 / 2 ^ 22 ≤ x ∧ x ≤ 9882595 / 2 ^ 21 → 0 < sin (x : ℝ) * cos (x : ℝ)) ∧
    (9882596 / 2 ^ 21 ≤ x ∧ x ≤ 13176794 / 2 ^ 21 → sin (x : ℝ) * cos (x : ℝ) < 0) := by
  have hl := pi_gt_d20
  have hu := pi_lt_d20
  have c : ∀ a b : ℚ, a ≤ b → (a : ℝ) ≤ (b : ℝ) := fun a b h => by exact_mod_cast h
  have x0 : (0 : ℝ) < (x : ℝ) := by exact_mod_cast h0
  have pos1 : ∀ y : ℝ, 0 < y → y < π → 0 < sin y := fun y => sin_pos_of_pos_of_lt_pi
  have neg1 : ∀ y : ℝ, π < y → y < 2 * π → sin y < 0 := by
    intro y h1 h2
    have := sin_neg_of_neg_of_neg_pi_lt (x := y - 2 * π) (by linarith) (by linarith)
    rwa [sin_sub_two_pi] at this
  rw [sc_sin]
  refine ⟨fun h => ?_, fun h => ?_, fun h => ?_, fun h => ?_⟩
  · have h2 := c _ _ h
    push_cast at h2
    have := pos1 (2 * x) (by linarith) (by norm_num at h2 hl ⊢; linarith)
    linarith
  · have h1 := c _ _ h.1
    have h2 := c _ _ h.2
    push_cast at h1 h2
    have := neg1 (2 * x) (by norm_num at h1 hu ⊢; linarith) (by norm_num at h2 hl ⊢; linarith)
    linarith
  · have h1 := c _ _ h.1
    have h2 := c _ _ h.2
    push_cast at h1 h2
    have := pos1 (2 * x - 2 * π) (by norm_num at h1 hu ⊢; linarith)
      (by norm_num at h2 hl ⊢; linarith)
    rw [sin_sub_two_pi] at this
    linarith
  · have h1 := c _ _ h.1
    have h2 := c _ _ h.2
    push_cast at h1 h2
    have := neg1 (2 * x - 2 * π) (by norm_num at h1 hu ⊢; linarith)
      (by norm_num at h2 hl ⊢; linarith)
    rw [sin_sub_two_pi] at this
    linarith

/-! ## The properties -/

/-- The angles for which the conversion to an integer loses the sign. -/
def Lost (θ : ℚ) : Prop := θ < 0 ∧ -1 < fl (θ * ipiF)

theorem thetaI_neg_iff {x : ℚ} (h : 0 < x) : thetaI (-x) < 0 ↔ ¬ Lost (-x) := by
  have hle : fl (-x * ipiF) ≤ 0 := fl_nonpos (by nlinarith [ipiF_pos])
  have ht : thetaI (-x) = ⌈fl (-x * ipiF)⌉ := by
    unfold thetaI cTrunc
    split
    · have : fl (-x * ipiF) = 0 := le_antisymm hle (by assumption)
      rw [this]
      simp
    · rfl
  unfold Lost
  rw [ht, not_and, not_lt]
  constructor
  · intro h1 _
    have h2 : ⌈fl (-x * ipiF)⌉ ≤ -1 := by omega
    rw [Int.ceil_le] at h2
    exact_mod_cast h2
  · intro h1
    have h2 : ⌈fl (-x * ipiF)⌉ ≤ -1 := by
      rw [Int.ceil_le]
      exact_mod_cast h1 (by linarith)
    omega

/-- **`calc_quadrant` is right for every `float` that `fmodf` can return, unless it is lost.**  The
flag is `1` exactly for the angle `0` and the angles whose sine and cosine have the same sign. -/
theorem quadrantF_correct {θ : ℚ} (h : IsFloat θ) (h1 : |θ| < twoPiF) (hl : ¬ Lost θ) :
    ∃ q, calcQuadrantF θ = some q ∧ (q = 0 ∨ q = 1) ∧
      (q = 1 ↔ θ = 0 ∨ 0 < Real.sin θ * Real.cos θ) ∧
      (q = 0 ↔ Real.sin θ * Real.cos θ < 0) := by
  rcases lt_trichotomy θ 0 with h0 | h0 | h0
  · rw [abs_of_neg h0] at h1
    have hx : 0 < -θ := by linarith
    have hn : thetaI (-(-θ)) < 0 := (thetaI_neg_iff hx).mpr (by rwa [neg_neg])
    obtain ⟨f1, f2, f3, f4⟩ := quadrantF_neg h.neg h1 hn
    obtain ⟨s1, s2, s3, s4⟩ := sc_sign hx
    rw [neg_neg] at f1 f2 f3 f4
    push_cast at s1 s2 s3 s4
    rw [Real.sin_neg, Real.cos_neg] at s1 s2 s3 s4
    have hne : θ ≠ 0 := h0.ne
    rcases float_quadrants h.neg h1 with hr | hr | hr | hr
    · have := s1 hr
      exact ⟨0, f1 hr, Or.inl rfl, by constructor <;> intro hh
                                      · simp at hh
                                      · rcases hh with hh | hh
                                        · exact absurd hh hne
                                        · linarith, by simp; linarith⟩
    · have := s2 hr
      exact ⟨1, f2 hr, Or.inr rfl, by simp; right; linarith, by simp; linarith⟩
    · have := s3 hr
      exact ⟨0, f3 hr, Or.inl rfl, by constructor <;> intro hh
                                      · simp at hh
                                      · rcases hh with hh | hh
                                        · exact absurd hh hne
                                        · linarith, by simp; linarith⟩
    · have := s4 hr
      exact ⟨1, f4 hr, Or.inr rfl, by simp; right; linarith, by simp; linarith⟩
  · subst h0
    refine ⟨1, by decide +kernel, Or.inr rfl, by simp, by simp⟩
  · rw [abs_of_pos h0] at h1
    obtain ⟨f1, f2, f3, f4⟩ := quadrantF_nonneg h h0.le h1
    obtain ⟨s1, s2, s3, s4⟩ := sc_sign h0
    have hne : θ ≠ 0 := h0.ne'
    rcases float_quadrants h h1 with hr | hr | hr | hr
    · have := s1 hr
      exact ⟨1, f1 hr, Or.inr rfl, by simp; right; linarith, by simp; linarith⟩
    · have := s2 hr
      exact ⟨0, f2 hr, Or.inl rfl, by constructor <;> intro hh
                                      · simp at hh
                                      · rcases hh with hh | hh
                                        · exact absurd hh hne
                                        · linarith, by simp; linarith⟩
    · have := s3 hr
      exact ⟨1, f3 hr, Or.inr rfl, by simp; right; linarith, by simp; linarith⟩
    · have := s4 hr
      exact ⟨0, f4 hr, Or.inl rfl, by constructor <;> intro hh
                                      · simp at hh
                                      · rcases hh with hh | hh
                                        · exact absurd hh hne
                                        · linarith, by simp; linarith⟩

/-- The lost angles are the `float`s between `-13212056 / 2⁵²` (about `-2.93e-9`) and zero. -/
theorem lost_iff {θ : ℚ} (h : IsFloat θ) : Lost θ ↔ θ < 0 ∧ -(13212056 / 2 ^ 52) ≤ θ := by
  unfold Lost
  refine and_congr_right fun h0 => ?_
  have v1 : fl (-(13212057 / 2 ^ 52) * ipiF) = -1 := by decide +kernel
  have v2 : -1 < fl (-(13212056 / 2 ^ 52) * ipiF) := by decide +kernel
  constructor
  · intro h1
    have g := float_gap h.neg 13212056 (-52) (by norm_num)
    rcases g with g | g
    · norm_num at g ⊢
      linarith
    · exfalso
      have h2 : fl (θ * ipiF) ≤ fl (-(13212057 / 2 ^ 52) * ipiF) := by
        refine fl_mono (mul_le_mul_of_nonneg_right ?_ ipiF_pos.le)
        norm_num at g ⊢
        linarith
      linarith
  · intro h1
    exact lt_of_lt_of_le v2 (fl_mono (mul_le_mul_of_nonneg_right h1 ipiF_pos.le))

/-- **For the lost angles the flag is wrong**: it is `1`, but sine and cosine have opposite
signs. -/
theorem quadrantF_lost {θ : ℚ} (h : IsFloat θ) (hl : Lost θ) :
    calcQuadrantF θ = some 1 ∧ Real.sin θ * Real.cos θ < 0 := by
  obtain ⟨h0, h1⟩ := (lost_iff h).mp hl
  have hx : 0 < -θ := by linarith
  have hsmall : -θ ≤ 13176794 / 2 ^ 23 := by
    norm_num at h1 ⊢
    linarith
  constructor
  · have ht : thetaI θ = 0 := by
      have n1 : ¬ thetaI (-(-θ)) < 0 := by rw [thetaI_neg_iff hx, neg_neg]; exact not_not.mpr hl
      rw [neg_neg] at n1
      have n2 := thetaI_mono h0.le
      have n3 : thetaI 0 = 0 := by decide +kernel
      omega
    have hi : int32 (thetaI θ) = true := by rw [ht]; decide
    refine (flag_of_range hi _ rfl).1 ?_
    rw [ht]
    decide
  · have := (sc_sign hx).1 hsmall
    push_cast at this
    rw [Real.sin_neg, Real.cos_neg] at this
    linarith

/-- **The exact range in which the flag agrees with the sign of the slope**, which is what
`sort_intersections` needs. -/
theorem quadrantF_flag_iff {θ : ℚ} (h : IsFloat θ) (h1 : |θ| < twoPiF) :
    (∃ q, calcQuadrantF θ = some q ∧ FlagOk q (Real.sin θ) (Real.cos θ)) ↔
      (0 ≤ θ ∨ θ < -(13212056 / 2 ^ 52)) := by
  by_cases hl : Lost θ
  · obtain ⟨hq, hs⟩ := quadrantF_lost h hl
    obtain ⟨l1, l2⟩ := (lost_iff h).mp hl
    constructor
    · rintro ⟨q, h2, h3⟩
      rw [hq] at h2
      cases h2
      have := h3.2 (by norm_num)
      linarith
    · rintro (h2 | h2) <;> linarith
  · obtain ⟨q, hq, h01, e1, e0⟩ := quadrantF_correct h h1 hl
    constructor
    · intro _
      by_contra hc
      rw [not_or, not_le, not_lt] at hc
      exact hl ((lost_iff h).mpr hc)
    · intro _
      refine ⟨q, hq, fun hz => (e0.mp hz).le, fun hz => ?_⟩
      rcases h01 with rfl | rfl
      · exact absurd rfl hz
      · rcases e1.mp rfl with hz | hz
        · rw [hz]; simp
        · exact hz.le

/-- A `float` angle in each quadrant, near the boundary at `3π/2`, and a lost one. -/
example : IsFloat (9882595 / 2 ^ 21) ∧ |(9882595 : ℚ) / 2 ^ 21| < twoPiF ∧
    calcQuadrantF (9882595 / 2 ^ 21) = some 1 ∧ calcQuadrantF (9882596 / 2 ^ 21) = some 0 ∧
    calcQuadrantF (-(9882595 / 2 ^ 21)) = some 0 ∧ calcQuadrantF (-(9882596 / 2 ^ 21)) = some 1 ∧
    IsFloat (-(1 / 2 ^ 29)) ∧ calcQuadrantF (-(1 / 2 ^ 29)) = some 1 := by
  unfold IsFloat
  decide +kernel

end Tomopy.Fl
