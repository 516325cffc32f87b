import Verif.Ray.Order
import Mathlib.Analysis.Real.Pi.Bounds
import Mathlib.Analysis.Real.Pi.Irrational
import Mathlib.Analysis.SpecialFunctions.Trigonometric.Basic

/-!
# The quadrant flag of `calc_quadrant` and the complete ray tracer over `ℝ`
-/

namespace Tomopy.Ray

open Real

/-! ## Model -/

/-- `ipi_c` (`source/libtomo/recon/utils.c:105`). -/
noncomputable def ipiC : ℝ := 340870420

/-- Values of `int32_t`; converting anything else from floating point is undefined
(`source/libtomo/recon/utils.c:106-107`). -/
def inInt32 (t : Int) : Bool := decide (-2147483648 ≤ t) && decide (t ≤ 2147483647)

/-- `theta_i += (theta_i < 0) ? (2.0f * M_PI * ipi_c) : 0` (`source/libtomo/recon/utils.c:107`):
the sum is formed in floating point and truncated again. -/
noncomputable def wrapTheta (t : Int) : Int :=
  if t < 0 then cTrunc ((t : ℝ) + 2 * π * ipiC) else t

/-- `calc_quadrant` (`source/libtomo/recon/utils.c:90-113`) in exact arithmetic; `none` is a
conversion outside `int32_t`. -/
noncomputable def calcQuadrant (θ : ℝ) : Option Int :=
  if inInt32 (cTrunc (θ * ipiC)) && inInt32 (wrapTheta (cTrunc (θ * ipiC))) then
    some (if (0 ≤ wrapTheta (cTrunc (θ * ipiC)) ∧
              (wrapTheta (cTrunc (θ * ipiC)) : ℝ) < 1 / 2 * π * ipiC) ∨
             (1 * π * ipiC ≤ (wrapTheta (cTrunc (θ * ipiC)) : ℝ) ∧
              (wrapTheta (cTrunc (θ * ipiC)) : ℝ) < 3 / 2 * π * ipiC) then 1 else 0)
  else none

/-- `fmodf(theta[p], 2.0f * M_PI)` (`source/libtomo/recon/art.c:95`, `project.c:88`): the
remainder has the sign of the first argument. -/
noncomputable def fmod2pi (θ : ℝ) : ℝ := θ - 2 * π * cTrunc (θ / (2 * π))

/-- `sqrtf(dx*dx + dy*dy)` (`source/libtomo/recon/utils.c:277-289`). -/
noncomputable def hypot (a b : ℝ) : ℝ := √(a * a + b * b)

/-- All segments of detector pixel `d` of the projection at angle `θ`
(`source/libtomo/recon/project.c:79-114`, `art.c:86-123`, `osem.c:95-146`); `none` is undefined
behaviour. -/
noncomputable def rayTrace (caps : Caps) (rx rz dx : Nat) (center θ : ℝ) (d : Nat) :
    Option (List (Int × ℝ)) := do
  let q ← calcQuadrant (fmod2pi θ)
  trace hypot caps q rx rz (rayY dx d (mov dx center)) (sin (fmod2pi θ)) (cos (fmod2pi θ))

/-! ## Properties -/

theorem hypot_isHyp : IsHyp hypot := by
  intro a b
  refine ⟨Real.sqrt_nonneg _, ?_⟩
  exact Real.mul_self_sqrt (add_nonneg (mul_self_nonneg a) (mul_self_nonneg b))

theorem cTrunc_nonneg {x : ℝ} (h : 0 ≤ x) : 0 ≤ cTrunc x ∧ (cTrunc x : ℝ) ≤ x ∧ x < cTrunc x + 1 := by
  rw [cTrunc, if_pos h]
  exact ⟨Int.floor_nonneg.mpr h, Int.floor_le x, Int.lt_floor_add_one x⟩

theorem cTrunc_neg {x : ℝ} (h : x < 0) :
    cTrunc x ≤ 0 ∧ x ≤ (cTrunc x : ℝ) ∧ (cTrunc x : ℝ) < x + 1 := by
  rw [cTrunc, if_neg (not_le.mpr h)]
  refine ⟨?_, Int.le_ceil x, Int.ceil_lt_add_one x⟩
  rw [Int.ceil_le]
  simpa using h.le

theorem fmod2pi_lt (θ : ℝ) : |fmod2pi θ| < 2 * π := by
  have hp : 0 < 2 * π := by linarith [pi_pos]
  unfold fmod2pi
  have e : θ = 2 * π * (θ / (2 * π)) := by field_simp
  rcases le_or_gt 0 (θ / (2 * π)) with h | h
  · obtain ⟨h1, h2, h3⟩ := cTrunc_nonneg h
    have : θ - 2 * π * cTrunc (θ / (2 * π)) = 2 * π * (θ / (2 * π) - cTrunc (θ / (2 * π))) := by
      rw [mul_sub, ← e]
    rw [this, abs_of_nonneg (mul_nonneg hp.le (by linarith))]
    have : 2 * π * (θ / (2 * π) - cTrunc (θ / (2 * π))) < 2 * π * 1 :=
      mul_lt_mul_of_pos_left (by linarith) hp
    linarith
  · obtain ⟨h1, h2, h3⟩ := cTrunc_neg h
    have : θ - 2 * π * cTrunc (θ / (2 * π)) = -(2 * π * (cTrunc (θ / (2 * π)) - θ / (2 * π))) := by
      rw [mul_sub, ← e]; ring
    rw [this, abs_neg, abs_of_nonneg (mul_nonneg hp.le (by linarith))]
    have : 2 * π * (cTrunc (θ / (2 * π)) - θ / (2 * π)) < 2 * π * 1 :=
      mul_lt_mul_of_pos_left (by linarith) hp
    linarith

theorem sin_fmod2pi (θ : ℝ) : sin (fmod2pi θ) = sin θ := by
  unfold fmod2pi
  rw [mul_comm]
  exact Real.sin_sub_int_mul_two_pi θ _

theorem cos_fmod2pi (θ : ℝ) : cos (fmod2pi θ) = cos θ := by
  unfold fmod2pi
  rw [mul_comm]
  exact Real.cos_sub_int_mul_two_pi θ _

theorem two_pi_ipiC : 2 * π * ipiC < 2147483647 := by
  have := Real.pi_lt_d6
  unfold ipiC
  nlinarith

theorem ipiC_pos : 0 < ipiC := by unfold ipiC; norm_num

/-- The integer angle of `calc_quadrant` compared with the angle `φ` in `[0, 2π)`. -/
theorem wrapTheta_bounds {θ : ℝ} (h : |θ| < 2 * π) :
    inInt32 (cTrunc (θ * ipiC)) = true ∧ inInt32 (wrapTheta (cTrunc (θ * ipiC))) = true ∧
      0 ≤ wrapTheta (cTrunc (θ * ipiC)) ∧
      ((0 ≤ θ ∧ (wrapTheta (cTrunc (θ * ipiC)) : ℝ) ≤ θ * ipiC ∧
          θ * ipiC < wrapTheta (cTrunc (θ * ipiC)) + 1) ∨
       (θ < 0 ∧ -1 < θ * ipiC) ∨
       (θ < 0 ∧ (wrapTheta (cTrunc (θ * ipiC)) : ℝ) < (θ + 2 * π) * ipiC + 1 ∧
          (θ + 2 * π) * ipiC - 1 < wrapTheta (cTrunc (θ * ipiC)))) := by
  have hC := ipiC_pos
  have hM := two_pi_ipiC
  rw [abs_lt] at h
  rcases le_or_gt 0 θ with h0 | h0
  · obtain ⟨h1, h2, h3⟩ := cTrunc_nonneg (mul_nonneg h0 hC.le)
    have hw : wrapTheta (cTrunc (θ * ipiC)) = cTrunc (θ * ipiC) := by
      rw [wrapTheta, if_neg (by omega)]
    have hlt : θ * ipiC < 2 * π * ipiC := mul_lt_mul_of_pos_right h.2 hC
    have hr : inInt32 (cTrunc (θ * ipiC)) = true := by
      simp only [inInt32, Bool.and_eq_true, decide_eq_true_eq]
      refine ⟨by omega, ?_⟩
      have : (cTrunc (θ * ipiC) : ℝ) < ((2147483647 : Int) : ℝ) := by push_cast; linarith
      have : cTrunc (θ * ipiC) < 2147483647 := by exact_mod_cast this
      omega
    rw [hw]
    exact ⟨hr, hr, h1, Or.inl ⟨h0, h2, h3⟩⟩
  · have hneg : θ * ipiC < 0 := mul_neg_of_neg_of_pos h0 hC
    obtain ⟨h1, h2, h3⟩ := cTrunc_neg hneg
    have hgt : -(2 * π * ipiC) < θ * ipiC := by
      have := mul_lt_mul_of_pos_right h.1 hC
      linarith
    have hr : inInt32 (cTrunc (θ * ipiC)) = true := by
      simp only [inInt32, Bool.and_eq_true, decide_eq_true_eq]
      refine ⟨?_, by omega⟩
      have : ((-2147483647 : Int) : ℝ) < (cTrunc (θ * ipiC) : ℝ) := by push_cast; linarith
      have : -2147483647 < cTrunc (θ * ipiC) := by exact_mod_cast this
      omega
    rcases eq_or_lt_of_le h1 with h4 | h4
    · have hw : wrapTheta (cTrunc (θ * ipiC)) = 0 := by
        rw [wrapTheta, if_neg (by omega), h4]
      rw [hw]
      refine ⟨hr, by decide, le_refl _, Or.inr (Or.inl ⟨h0, ?_⟩)⟩
      rw [h4] at h3
      push_cast at h3
      linarith
    · have hw : wrapTheta (cTrunc (θ * ipiC)) = cTrunc ((cTrunc (θ * ipiC) : ℝ) + 2 * π * ipiC) := by
        rw [wrapTheta, if_pos h4]
      have hnn : 0 ≤ (cTrunc (θ * ipiC) : ℝ) + 2 * π * ipiC := by linarith
      obtain ⟨g1, g2, g3⟩ := cTrunc_nonneg hnn
      have h4' : (cTrunc (θ * ipiC) : ℝ) < 0 := by exact_mod_cast h4
      have hr2 : inInt32 (cTrunc ((cTrunc (θ * ipiC) : ℝ) + 2 * π * ipiC)) = true := by
        simp only [inInt32, Bool.and_eq_true, decide_eq_true_eq]
        refine ⟨by omega, ?_⟩
        have : (cTrunc ((cTrunc (θ * ipiC) : ℝ) + 2 * π * ipiC) : ℝ) < ((2147483647 : Int) : ℝ) := by
          push_cast; linarith
        have : cTrunc ((cTrunc (θ * ipiC) : ℝ) + 2 * π * ipiC) < 2147483647 := by exact_mod_cast this
        omega
      rw [hw]
      exact ⟨hr, hr2, g1, Or.inr (Or.inr ⟨h0, by linarith, by linarith⟩)⟩

/-- No integer overflow or invalid conversion for the reduced angle. -/
theorem calcQuadrant_defined {θ : ℝ} (h : |θ| < 2 * π) :
    ∃ q, calcQuadrant θ = some q ∧ (q = 0 ∨ q = 1) := by
  obtain ⟨h1, h2, _⟩ := wrapTheta_bounds h
  unfold calcQuadrant
  rw [h1, h2]
  simp only [Bool.and_self, if_true]
  split
  · exact ⟨1, rfl, Or.inr rfl⟩
  · exact ⟨0, rfl, Or.inl rfl⟩

theorem sc_first {φ : ℝ} (h0 : 0 ≤ φ) (h1 : φ ≤ π / 2) : 0 ≤ sin φ * cos φ :=
  mul_nonneg (sin_nonneg_of_nonneg_of_le_pi h0 (by linarith [pi_pos]))
    (cos_nonneg_of_neg_pi_div_two_le_of_le (by linarith [pi_pos]) h1)

theorem sc_second {φ : ℝ} (h0 : π / 2 ≤ φ) (h1 : φ ≤ π) : sin φ * cos φ ≤ 0 := by
  have h := sc_first (φ := φ - π / 2) (by linarith) (by linarith)
  rw [sin_sub_pi_div_two, cos_sub_pi_div_two] at h
  linarith

theorem sc_third {φ : ℝ} (h0 : π ≤ φ) (h1 : φ ≤ 3 * π / 2) : 0 ≤ sin φ * cos φ := by
  have h := sc_first (φ := φ - π) (by linarith) (by linarith)
  rw [sin_sub_pi, cos_sub_pi] at h
  linarith

theorem sc_fourth {φ : ℝ} (h0 : 3 * π / 2 ≤ φ) (h1 : φ ≤ 2 * π) : sin φ * cos φ ≤ 0 := by
  have h := sc_second (φ := φ - π) (by linarith) (by linarith)
  rw [sin_sub_pi, cos_sub_pi] at h
  linarith

/-- `θ` is exactly a multiple of a right angle or at least `1/ipi_c` (about 3e-9 rad) away from
all of them. -/
def ClearOfAxes (θ : ℝ) : Prop := ∀ k : Int, θ = k * (π / 2) ∨ 1 / ipiC ≤ |θ - k * (π / 2)|

theorem quadrant_core {φ t : ℝ} (h0 : 0 ≤ φ) (h1 : φ < 2 * π) (ht0 : 0 ≤ t)
    (hc : ∀ k : Int, φ = k * (π / 2) ∨ 1 / ipiC ≤ |φ - k * (π / 2)|)
    (hlo : φ * ipiC - 1 < t) (hhi : t < φ * ipiC + 1) :
    ((0 ≤ t ∧ t < 1 / 2 * π * ipiC) ∨ (1 * π * ipiC ≤ t ∧ t < 3 / 2 * π * ipiC) →
      0 ≤ sin φ * cos φ) ∧
    (¬((0 ≤ t ∧ t < 1 / 2 * π * ipiC) ∨ (1 * π * ipiC ≤ t ∧ t < 3 / 2 * π * ipiC)) →
      sin φ * cos φ ≤ 0) := by
  have hC := ipiC_pos
  -- comparisons of `t` carry over to `φ`
  have up : ∀ (k : Int) (x : ℝ), x = k * (π / 2) → t < x * ipiC → φ ≤ x := by
    intro k x hx hlt
    by_contra hcon
    have hcon := not_le.mp hcon
    rcases hc k with h | h
    · rw [hx] at hcon; linarith
    · rw [← hx, abs_of_pos (by linarith), div_le_iff₀ hC] at h
      nlinarith
  have dn : ∀ (k : Int) (x : ℝ), x = k * (π / 2) → x * ipiC ≤ t → x ≤ φ := by
    intro k x hx hlt
    by_contra hcon
    have hcon := not_le.mp hcon
    rcases hc k with h | h
    · rw [hx] at hcon; linarith
    · rw [← hx, abs_of_neg (by linarith), div_le_iff₀ hC] at h
      nlinarith
  have u1 := up 1 (π / 2) (by push_cast; ring)
  have u2 := up 2 π (by push_cast; ring)
  have u3 := up 3 (3 * π / 2) (by push_cast; ring)
  have d1 := dn 1 (π / 2) (by push_cast; ring)
  have d2 := dn 2 π (by push_cast; ring)
  have d3 := dn 3 (3 * π / 2) (by push_cast; ring)
  constructor
  · rintro (⟨_, h⟩ | ⟨h, h'⟩)
    · exact sc_first h0 (u1 (by linarith))
    · exact sc_third (d2 (by linarith)) (u3 (by linarith))
  · intro h
    rw [not_or, not_and, not_and] at h
    have g1 : 1 / 2 * π * ipiC ≤ t := not_lt.mp (h.1 ht0)
    rcases lt_or_ge t (1 * π * ipiC) with h2 | h2
    · exact sc_second (d1 (by linarith)) (u2 (by linarith))
    · have g2 : 3 / 2 * π * ipiC ≤ t := not_lt.mp (h.2 h2)
      exact sc_fourth (d3 (by linarith)) h1.le

/-- The quadrant flag agrees with the sign of the slope for every reduced angle that is not
strictly within `1/ipi_c` of a coordinate axis. -/
theorem calcQuadrant_flag {θ : ℝ} (h : |θ| < 2 * π) (hc : ClearOfAxes θ) (q : Int)
    (hq : calcQuadrant θ = some q) : FlagOk q (sin θ) (cos θ) := by
  have hC := ipiC_pos
  obtain ⟨h1, h2, h3, h4⟩ := wrapTheta_bounds h
  unfold calcQuadrant at hq
  rw [h1, h2] at hq
  simp only [Bool.and_self, if_true, Option.some.injEq] at hq
  set t := wrapTheta (cTrunc (θ * ipiC)) with ht
  have h3' : (0 : ℝ) ≤ t := by exact_mod_cast h3
  rw [abs_lt] at h
  have key : ((0 ≤ (t : ℝ) ∧ (t : ℝ) < 1 / 2 * π * ipiC) ∨
        (1 * π * ipiC ≤ (t : ℝ) ∧ (t : ℝ) < 3 / 2 * π * ipiC) → 0 ≤ sin θ * cos θ) ∧
      (¬((0 ≤ (t : ℝ) ∧ (t : ℝ) < 1 / 2 * π * ipiC) ∨
        (1 * π * ipiC ≤ (t : ℝ) ∧ (t : ℝ) < 3 / 2 * π * ipiC)) → sin θ * cos θ ≤ 0) := by
    rcases h4 with ⟨g0, g1, g2⟩ | ⟨g0, g1⟩ | ⟨g0, g1, g2⟩
    · exact quadrant_core g0 h.2 h3' hc (by linarith) (by linarith)
    · exfalso
      rcases hc 0 with e | e
      · push_cast at e; linarith
      · push_cast at e
        rw [zero_mul, sub_zero, abs_of_neg g0, div_le_iff₀ hC] at e
        linarith
    · have := quadrant_core (φ := θ + 2 * π) (by linarith) (by linarith) h3' (by
        intro k
        rcases hc (k - 4) with e | e
        · left; push_cast at e; linarith
        · right
          have e2 : θ + 2 * π - k * (π / 2) = θ - ((k - 4 : Int) : ℝ) * (π / 2) := by
            push_cast; ring
          rw [e2]; exact e) g2 g1
      rw [sin_add_two_pi, cos_add_two_pi] at this
      exact this
  have ecast : (0 ≤ t) ↔ (0 ≤ (t : ℝ)) := by norm_cast
  by_cases hcond : (0 ≤ (t : ℝ) ∧ (t : ℝ) < 1 / 2 * π * ipiC) ∨
        (1 * π * ipiC ≤ (t : ℝ) ∧ (t : ℝ) < 3 / 2 * π * ipiC)
  · rw [if_pos (by rw [ecast]; exact hcond)] at hq
    subst hq
    exact ⟨fun h => absurd h (by decide), fun _ => key.1 hcond⟩
  · rw [if_neg (by rw [ecast]; exact hcond)] at hq
    subst hq
    exact ⟨fun _ => key.2 hcond, fun h => absurd rfl h⟩

theorem ClearOfAxes.fmod {θ : ℝ} (h : ClearOfAxes θ) : ClearOfAxes (fmod2pi θ) := by
  intro k
  have e : fmod2pi θ - k * (π / 2) = θ - ((k + 4 * cTrunc (θ / (2 * π)) : Int) : ℝ) * (π / 2) := by
    unfold fmod2pi; push_cast; ring
  rcases h (k + 4 * cTrunc (θ / (2 * π))) with h1 | h1
  · left
    have : fmod2pi θ - k * (π / 2) = 0 := by rw [e, ← h1, sub_self]
    linarith
  · right
    rw [e]; exact h1

/-- **C29 for the complete tracer**: every image size, detector width and pixel, centre and
angle gives a defined result within the buffers, with pixel indices inside the slice and
non-negative lengths. -/
theorem rayTrace_safe (rx rz dx : Nat) (center θ : ℝ) (d : Nat) :
    ∃ segs, rayTrace (capsRecon rx rz) rx rz dx center θ d = some segs ∧
      rayTrace (capsProject rx rz) rx rz dx center θ d = some segs ∧
      ∀ e ∈ segs, 0 ≤ e.1 ∧ e.1 < (rx * rz : Nat) ∧ 0 ≤ e.2 := by
  obtain ⟨q, hq, _⟩ := calcQuadrant_defined (fmod2pi_lt θ)
  obtain ⟨segs, h1, _, h3⟩ := trace_safe hypot q rx rz (rayY dx d (mov dx center))
    (sin (fmod2pi θ)) (cos (fmod2pi θ))
  refine ⟨segs, ?_, ?_, ?_⟩
  · simp only [rayTrace, hq, Option.bind_eq_bind, Option.bind_some]
    exact h1
  · simp only [rayTrace, hq, Option.bind_eq_bind, Option.bind_some]
    rw [trace_safe_project]
    exact h1
  · intro e he
    refine ⟨(h3 e he).1, (h3 e he).2, ?_⟩
    obtain ⟨P, Q, _, _, _, _, _, _, rfl⟩ := segment_charged hypot q rx rz _ _ _ segs h1 e he
    exact (hypot_isHyp _ _).1

/-- **C30 for the complete tracer.** For every angle that is not strictly within `1/ipi_c` of a
coordinate axis, the segments are those of the ordered list of crossings, they add up to the
chord, each is charged to the pixel of its mid point, and no pixel gets two segments of
positive length. -/
theorem rayTrace_spec_partial (rx rz dx : Nat) (center θ : ℝ) (d : Nat) (hc : ClearOfAxes θ) :
    ∃ segs pts, rayTrace (capsRecon rx rz) rx rz dx center θ d = some segs ∧
      (0 < rx + rz → ∀ P, P ∈ pts ↔
        IsCrossing rx rz (rayY dx d (mov dx center)) (sin θ) (cos θ) P) ∧
      (OrderedAlong (cos θ) (sin θ) pts ∨ OrderedAlong (-cos θ) (-sin θ) pts) ∧
      (∀ e ∈ segs, ∃ P Q ix iy, [P, Q] <:+: pts ∧ ix < rx ∧ iy < rz ∧ MidIn rx rz P Q ix iy ∧
        e = (((iy + ix * rz : Nat) : Int), hypot (Q.1 - P.1) (Q.2 - P.2))) ∧
      (∀ first last, pts.head? = some first → pts.getLast? = some last →
        (segs.map Prod.snd).sum = hypot (last.1 - first.1) (last.2 - first.2)) ∧
      segs.Pairwise (fun e f => e.1 = f.1 → e.2 = 0 ∨ f.2 = 0) := by
  obtain ⟨q, hq, _⟩ := calcQuadrant_defined (fmod2pi_lt θ)
  have hf := calcQuadrant_flag (fmod2pi_lt θ) hc.fmod q hq
  rw [sin_fmod2pi, cos_fmod2pi] at hf
  obtain ⟨segs, h1, _, _⟩ := trace_safe hypot q rx rz (rayY dx d (mov dx center)) (sin θ) (cos θ)
  refine ⟨segs, crossings q rx rz (rayY dx d (mov dx center)) (sin θ) (cos θ), ?_, ?_, ?_, ?_, ?_, ?_⟩
  · simp only [rayTrace, hq, Option.bind_eq_bind, Option.bind_some, sin_fmod2pi, cos_fmod2pi]
    exact h1
  · exact fun hr P => mem_crossings hr
  · exact crossings_ordered q rx rz _ _ _ hf
  · exact fun e he => segment_charged hypot q rx rz _ _ _ segs h1 e he
  · intro first last hfi hla
    obtain ⟨segs', h1', _, h3⟩ := segments_sum hypot hypot_isHyp q rx rz _ _ _ hf first last hfi hla
    rw [h1] at h1'
    cases h1'
    exact h3
  · exact trace_once hypot hypot_isHyp q rx rz _ _ _ hf segs h1

/-- A concrete angle that satisfies the hypothesis of `rayTrace_spec_partial`: 45 degrees. -/
example : ClearOfAxes (π / 4) := by
  intro k
  right
  have hpi := Real.pi_gt_three
  have e : π / 4 - k * (π / 2) = (1 - 2 * k) * (π / 4) := by ring
  rw [e, abs_mul, abs_of_pos (show 0 < π / 4 by linarith)]
  have h1 : (1 : ℝ) ≤ |1 - 2 * (k : ℝ)| := by
    have : (1 : Int) ≤ |1 - 2 * k| := by
      apply Int.one_le_abs; omega
    have h := (Int.cast_le (R := ℝ)).mpr this
    push_cast at h
    exact h
  have h2 : 1 / ipiC ≤ 1 / 2 := by
    unfold ipiC; norm_num
  nlinarith

/-- The restriction on the angle is needed: immediately above 90 degrees the truncation to
integers gives the flag of the first quadrant although the slope is negative. -/
theorem calcQuadrant_wrong_near_axis :
    ∃ θ : ℝ, |θ| < 2 * π ∧ calcQuadrant θ = some 1 ∧ ¬ FlagOk 1 (sin θ) (cos θ) := by
  have hC := ipiC_pos
  have hpi := Real.pi_gt_three
  set a := π / 2 * ipiC with ha
  have hapos : 0 < a := by positivity
  have hirr : (⌊a⌋ : ℝ) ≠ a := by
    intro h
    have hI : Irrational a := by
      have : a = π * ((170435210 : ℚ) : ℝ) := by
        rw [ha, ipiC]; push_cast; ring
      rw [this]
      exact irrational_pi.mul_ratCast (by norm_num)
    exact hI ⟨(⌊a⌋ : ℚ), by push_cast; exact h⟩
  have hfl : (⌊a⌋ : ℝ) < a := lt_of_le_of_ne (Int.floor_le a) hirr
  have hfl2 := Int.lt_floor_add_one a
  set b := (a + (⌊a⌋ + 1)) / 2 with hb
  have hab : a < b := by rw [hb]; linarith
  have hb1 : b < ⌊a⌋ + 1 := by rw [hb]; linarith
  have hθ : b / ipiC * ipiC = b := by field_simp
  have hba : b < a + 1 := by linarith
  have hθlo : π / 2 < b / ipiC := by
    rw [lt_div_iff₀ hC]; exact hab
  have hθhi : b / ipiC < π / 2 + 1 := by
    rw [div_lt_iff₀ hC, add_mul]
    have : (1 : ℝ) ≤ 1 * ipiC := by unfold ipiC; norm_num
    linarith
  have habs : |b / ipiC| < 2 * π := by
    rw [abs_of_pos (by linarith)]; linarith
  have htr : cTrunc (b / ipiC * ipiC) = ⌊a⌋ := by
    rw [hθ, cTrunc, if_pos (by linarith), Int.floor_eq_iff]
    exact ⟨by linarith, hb1⟩
  obtain ⟨h1, h2, h3, _⟩ := wrapTheta_bounds habs
  refine ⟨b / ipiC, habs, ?_, ?_⟩
  · unfold calcQuadrant
    rw [h1, h2]
    simp only [Bool.and_self, if_true, Option.some.injEq]
    rw [if_pos]
    left
    refine ⟨h3, ?_⟩
    have hnn : ¬ (⌊a⌋ < 0) := by
      rw [not_lt]; exact Int.floor_nonneg.mpr hapos.le
    rw [htr, wrapTheta, if_neg hnn]
    calc (⌊a⌋ : ℝ) < a := hfl
      _ = 1 / 2 * π * ipiC := by rw [ha]; ring
  · intro h
    have hs : 0 < sin (b / ipiC) := sin_pos_of_pos_of_lt_pi (by linarith) (by linarith)
    have hcneg : cos (b / ipiC) < 0 :=
      cos_neg_of_pi_div_two_lt_of_lt hθlo (by linarith)
    have := h.2 (by decide)
    have := mul_neg_of_pos_of_neg hs hcneg
    linarith

end Tomopy.Ray
