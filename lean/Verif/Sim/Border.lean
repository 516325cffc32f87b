import Verif.Ray.Border
import Verif.Sim.Turn

/-!
# Projections of an object with zeros around it (C173)

The full statement, for all objects, angles and widths: zeros added on both sides of the object do not change its
projections.  It is false (`project_surrounded_loses`); proved for the rays that stay away from the ends of the
grid lines of the object (`Ray.ClearOfBorder`).
-/

set_option linter.unusedSectionVars false

namespace Tomopy.Sim

open Tomopy.Iter Tomopy.Mproc Tomopy.Recon
open Real (pi)

/-! ## Specification -/

/-- `u'` is `numpy.pad(u, ((p, p), (q, q)))` for a slice `u` of `ox × oz` pixels. -/
structure ZeroPadded (p q ox oz : Nat) (u u' : Mem ℝ) : Prop where
  inner : ∀ ix < ox, ∀ iy < oz, u' ((ix + p) * (oz + 2 * q) + (iy + q)) = u (ix * oz + iy)
  outer : ∀ ix < ox + 2 * p, ∀ iy < oz + 2 * q, ¬ (p ≤ ix ∧ ix < p + ox ∧ q ≤ iy ∧ iy < q + oz) →
    u' (ix * (oz + 2 * q) + iy) = 0

/-- The rays of a detector of `dx` pixels with the axis in its middle that are taken at `theta`: they meet the
grid lines of the object only at least 1/100 away from the ends of those lines. -/
def RaysClear (ox oz dx : Nat) (theta : List ℝ) : Prop :=
  ∀ p < theta.length, Ray.ClearOfAxes (theta.getD p 0) ∧
    ∀ d < dx, Ray.ClearOfBorder ox oz ((d : ℝ) + 1 / 2 - (dx : ℝ) / 2) (Real.sin (theta.getD p 0))
      (Real.cos (theta.getD p 0))

/-! ## Proofs -/

theorem ZeroPadded.surrounded {p q ox oz : Nat} {u u' : Mem ℝ} (h : ZeroPadded p q ox oz u u') :
    Ray.Surrounded p q ox oz (fun i => u i.toNat) (fun i => u' i.toNat) := by
  refine ⟨fun ix hx iy hy => ?_, fun ix hx iy hy hn => ?_⟩
  · show u' _ = u _
    rw [Int.toNat_natCast, Int.toNat_natCast, Nat.add_comm, h.inner ix hx iy hy, Nat.add_comm]
  · show u' _ = 0
    rw [Int.toNat_natCast, Nat.add_comm]
    exact h.outer ix hx iy hy hn

/-- **C173 (partial)** for one detector pixel, in any two scans in which its ray is the same line. -/
theorem rayIntegral_padded {p q ox oz : Nat} (hr : 0 < ox + oz) {u u' : Mem ℝ} (h : ZeroPadded p q ox oz u u')
    {theta : List ℝ} {j dx d dx' d' : Nat} {c c' : ℝ} (hax : Ray.ClearOfAxes (theta.getD j 0))
    (hline : Ray.rayY dx' d' (Ray.mov dx' c') = Ray.rayY dx d (Ray.mov dx c))
    (hc : Ray.ClearOfBorder ox oz (Ray.rayY dx d (Ray.mov dx c)) (Real.sin (theta.getD j 0))
      (Real.cos (theta.getD j 0))) :
    rayIntegral (ox + 2 * p) (oz + 2 * q) dx' theta c' j d' u' = rayIntegral ox oz dx theta c j d u := by
  obtain ⟨g, hg, hq⟩ := Ray.rayTrace_flag hax
  have h0 : Real.sin (theta.getD j 0) ≠ 0 ∨ Real.cos (theta.getD j 0) ≠ 0 := by
    by_contra hn
    push Not at hn
    have := Real.sin_sq_add_cos_sq (theta.getD j 0)
    rw [hn.1, hn.2] at this
    norm_num at this
  obtain ⟨segs, segs', e1, e2, e3⟩ := Ray.trace_surrounded Ray.hypot_isHyp p q hr h0 hc hg hg h.surrounded
  unfold rayIntegral tracerGeom
  simp only
  rw [hq, hq, hline, e1, e2]
  unfold lineSum
  rw [Option.getD_some, Option.getD_some, List.map_map, List.map_map]
  simpa [Function.comp_def] using e3

/-- The widths of the detector for the object and for the padded object differ by an even number. -/
theorem width_padded {ox oz p q dx dx' : Nat} {pad : Pad} (hw : projectWidth ox oz pad = .ok dx)
    (hw' : projectWidth (ox + 2 * p) (oz + 2 * q) pad = .ok dx') : ∃ k, dx' = dx + 2 * k := by
  cases pad with
  | other => simp [projectWidth] at hw
  | no =>
    simp only [projectWidth, Except.ok.injEq] at hw hw'
    exact ⟨p, by omega⟩
  | yes =>
    obtain ⟨a, ha⟩ := (pad_margin hw).1
    obtain ⟨b, hb⟩ := (pad_margin hw').1
    simp only [projectWidth, Except.ok.injEq, roundToEven] at hw hw'
    have hle : dx ≤ dx' := by
      rw [← hw, ← hw']
      refine Nat.mul_le_mul_right 2 (Nat.ceil_mono ?_)
      have : Real.sqrt ((ox : ℝ) * ox + oz * oz) ≤
          Real.sqrt (((ox + 2 * p : Nat) : ℝ) * ((ox + 2 * p : Nat) : ℝ) +
            ((oz + 2 * q : Nat) : ℝ) * ((oz + 2 * q : Nat) : ℝ)) := by
        refine Real.sqrt_le_sqrt ?_
        have hx : (ox : ℝ) ≤ ((ox + 2 * p : Nat) : ℝ) := by exact_mod_cast Nat.le_add_right _ _
        have hz : (oz : ℝ) ≤ ((oz + 2 * q : Nat) : ℝ) := by exact_mod_cast Nat.le_add_right _ _
        have h1 : (0 : ℝ) ≤ ox := Nat.cast_nonneg _
        have h2 : (0 : ℝ) ≤ oz := Nat.cast_nonneg _
        exact add_le_add (mul_le_mul hx hx h1 (h1.trans hx)) (mul_le_mul hz hz h2 (h2.trans hz))
      linarith
    exact ⟨b - a, by omega⟩

/-- **C173 (partial)**: `project` of the padded object holds the projections of the object, in the middle of a
wider detector, for any number of cores and schedule in the two calls. -/
theorem project_padded_partial {cpu : Nat} {debug : Bool} {oy ox oz p q : Nat} {u u' : Nat → Mem ℝ}
    {theta : List ℝ} {emission : Bool} {pad : Pad} {sino : Bool} {n₁ k₁ n₂ k₂ : Option Nat} {so₁ sc₁ so₂ sc₂ : Bool}
    {r r' : Arr3 ℝ} (hr : 0 < ox + oz) (hu : ∀ s < oy, ZeroPadded p q ox oz (u s) (u' s))
    (hgen : ∀ dx, projectWidth ox oz pad = .ok dx → RaysClear ox oz dx theta)
    (h : Project cpu debug oy ox oz u theta none emission pad sino so₁ sc₁ n₁ k₁ r)
    (h' : Project cpu debug oy (ox + 2 * p) (oz + 2 * q) u' theta none emission pad sino so₂ sc₂ n₂ k₂ r') :
    ∃ k, (r'.d0, r'.d1, r'.d2) = (r.d0, r.d1, r.d2 + 2 * k) ∧
      ∀ i < r.d0, ∀ j < r.d1, ∀ d < r.d2, r'.get i j (d + k) = r.get i j d := by
  obtain ⟨dx, hw, hd, hv⟩ := project_spec h (Or.inl rfl)
  obtain ⟨dx', hw', hd', hv'⟩ := project_spec h' (Or.inl rfl)
  obtain ⟨k, rfl⟩ := width_padded hw hw'
  have key : ∀ s < oy, ∀ j < theta.length, ∀ d < dx,
      rayIntegral (ox + 2 * p) (oz + 2 * q) (dx + 2 * k) theta ((getCenter oy (dx + 2 * k) none).getD 0 0) j (d + k)
        (u' s) = rayIntegral ox oz dx theta ((getCenter oy dx none).getD 0 0) j d (u s) := by
    intro s hs j hj d hd
    have hc : ∀ m : Nat, (getCenter oy m (none : Option (List ℝ))).getD 0 0 = (m : ℝ) / 2 := fun m =>
      getCenter_default _ _ _ (by omega)
    rw [hc, hc]
    refine rayIntegral_padded hr (hu s hs) (hgen dx hw j hj).1 ?_ ?_
    · rw [Ray.rayY_default, Ray.rayY_default]
      push_cast
      ring
    · rw [Ray.rayY_default]
      exact (hgen dx hw j hj).2 d hd
  refine ⟨k, ?_, ?_⟩
  · rw [hd']
    cases sino <;> simp only [Bool.false_eq_true, if_false, if_true, Prod.mk.injEq] at hd ⊢ <;> omega
  cases sino
  · simp only [Bool.false_eq_true, if_false, Prod.mk.injEq] at hd hv hv'
    obtain ⟨e0, e1, e2⟩ := hd
    intro i hi j hj d hd
    rw [e0] at hi
    rw [e1] at hj
    rw [e2] at hd
    rw [hv j hj i hi d hd, hv' j hj i hi (d + k) (by omega), key j hj i hi d hd]
  · simp only [if_true, Prod.mk.injEq] at hd hv hv'
    obtain ⟨e0, e1, e2⟩ := hd
    intro i hi j hj d hd
    rw [e0] at hi
    rw [e1] at hj
    rw [e2] at hd
    rw [hv i hi j hj d hd, hv' i hi j hj (d + k) (by omega), key i hi j hj d hd]

/-! ## Where the hypothesis holds -/

/-- A ray along the first axis is clear if it is not within 1/100 of the border of the object, or outside. -/
theorem clear_axis0 {ox oz : Nat} {y : ℝ} (h : -(oz : ℝ) / 2 ≤ y → y ≤ (oz : ℝ) / 2 → Ray.Margin oz y) :
    Ray.ClearOfBorder ox oz y 0 1 := by
  refine ⟨fun h => absurd rfl h, fun _ n _ v hv h1 h2 => ?_⟩
  simp only [Ray.OnRay, mul_one, mul_zero, sub_zero, zero_add] at hv
  subst hv
  exact h h1 h2

/-- At angle 0 all rays are clear if the detector is as wide as the object modulo 2. -/
theorem raysClear_zero (ox oz k : Nat) : RaysClear ox oz (oz + 2 * k) [0] := by
  intro p hp
  obtain rfl : p = 0 := by simpa using hp
  have e : ([0] : List ℝ).getD 0 0 = 0 := rfl
  rw [e, Real.sin_zero, Real.cos_zero]
  refine ⟨Ray.clear_zero, fun d hd => clear_axis0 fun h1 h2 => ?_⟩
  push_cast at h1 h2 ⊢
  have a : (k : ℝ) < d + 1 := by linarith
  have b : (d : ℝ) < oz + k := by linarith
  have a' : k ≤ d := by
    have : k < d + 1 := by exact_mod_cast a
    omega
  have b' : d + 1 ≤ oz + k := by
    have : d < oz + k := by exact_mod_cast b
    omega
  have a'' : (k : ℝ) ≤ d := by exact_mod_cast a'
  have b'' : (d : ℝ) + 1 ≤ oz + k := by exact_mod_cast b'
  constructor <;> linarith

/-- A concrete case: the hypothesis holds for the default width of objects with even `oz` at angle 0. -/
example (ox m dx : Nat) (h : projectWidth ox (2 * m) .yes = .ok dx) : RaysClear ox (2 * m) dx [0] := by
  obtain ⟨⟨a, rfl⟩, -, h3⟩ := pad_margin h
  obtain ⟨k, hk⟩ : ∃ k, 2 * a = 2 * m + 2 * k := ⟨a - m, by omega⟩
  rw [hk]
  exact raysClear_zero _ _ _

/-- A concrete case: an oblique ray through the middle of a 2 × 2 object. -/
example : Ray.ClearOfBorder (K := ℝ) 2 2 0 (3 / 5) (4 / 5) := by
  constructor
  · intro _ n hn x hx h1 h2
    simp only [Ray.OnRay, Ray.grid, Ray.Margin] at *
    interval_cases n <;> push_cast at * <;> constructor <;> linarith
  · intro _ n hn y hy h1 h2
    simp only [Ray.OnRay, Ray.grid, Ray.Margin] at *
    interval_cases n <;> push_cast at * <;> constructor <;> linarith

/-- A concrete padded object. -/
example : ZeroPadded 1 1 1 2 (fun i => if i = 0 then 5 else 7)
    (fun i => if i = 5 then 5 else if i = 6 then 7 else 0) := by
  constructor
  · intro ix hx iy hy
    interval_cases ix
    interval_cases iy <;> norm_num
  · intro ix hx iy hy hn
    interval_cases ix <;> interval_cases iy <;> simp_all

/-! ## Refutation -/

/-- **C173 (refutation)**: at angle 0 and with default arguments `project` does not see the line `u[s, :, 0]` of an
object with odd `oz`; with zeros around the object it does. -/
theorem project_surrounded_loses {cpu : Nat} {debug : Bool} {oy ox oz p q : Nat} {u u' : Nat → Mem ℝ}
    {theta : List ℝ} {n₁ k₁ n₂ k₂ : Option Nat} {so₁ sc₁ so₂ sc₂ : Bool} {r r' : Arr3 ℝ} {j : Nat}
    (hox : 0 < ox) (hoz : oz % 2 = 1) (hq : 0 < q) (hu : ∀ s < oy, ZeroPadded p q ox oz (u s) (u' s))
    (h : Project cpu debug oy ox oz u theta none true .yes false so₁ sc₁ n₁ k₁ r)
    (h' : Project cpu debug oy (ox + 2 * p) (oz + 2 * q) u' theta none true .yes false so₂ sc₂ n₂ k₂ r')
    (hj : j < theta.length) (h0 : theta.getD j 0 = 0) {s : Nat} (hs : s < oy) :
    ∃ k d, d < r.d2 ∧ r'.d2 = r.d2 + 2 * k ∧ r.get j s d = 0 ∧
      r'.get j s (d + k) = ∑ i ∈ Finset.range ox, u s (i * oz) := by
  obtain ⟨dx, hw, hd, -⟩ := project_spec h (Or.inl rfl)
  obtain ⟨dx', hw', hd', -⟩ := project_spec h' (Or.inl rfl)
  obtain ⟨k, rfl⟩ := width_padded hw hw'
  simp only [Bool.false_eq_true, if_false, Prod.mk.injEq] at hd hd'
  obtain ⟨h2, -, hz⟩ := pad_margin hw
  obtain ⟨-, -, hz'⟩ := pad_margin hw'
  have v := (project_axis0_exact h hox hj h0).2 s hs ((dx - oz) / 2) (by omega)
  have v' := (project_axis0_exact h' (by omega) hj h0).2 s hs ((dx - oz) / 2 + k) (by omega)
  refine ⟨k, (dx - oz) / 2, by omega, by omega, ?_, ?_⟩
  · rw [v, if_neg (by omega)]
  · rw [v', if_pos (by omega), hd'.2.2]
    have e : (dx - oz) / 2 + k - (dx + 2 * k - (oz + 2 * q)) / 2 = q := by omega
    rw [e]
    have hz0 : ∀ i < ox + 2 * p, ¬ (p ≤ i ∧ i < p + ox) → u' s (i * (oz + 2 * q) + q) = 0 := fun i hi hn =>
      (hu s hs).outer i hi q (by omega) (by omega)
    rw [show ox + 2 * p = p + (ox + p) by ring, Finset.sum_range_add, Finset.sum_range_add,
      Finset.sum_eq_zero fun i hi => hz0 i (by rw [Finset.mem_range] at hi; omega)
        (by rw [Finset.mem_range] at hi; omega),
      Finset.sum_eq_zero (s := Finset.range p) (f := fun i => u' s ((p + (ox + i)) * (oz + 2 * q) + q))
        fun i hi => hz0 _ (by rw [Finset.mem_range] at hi; omega) (by omega), zero_add, add_zero]
    refine Finset.sum_congr rfl fun i hi => ?_
    have := (hu s hs).inner i (Finset.mem_range.mp hi) 0 (by omega)
    rw [Nat.zero_add, Nat.add_zero] at this
    rw [Nat.add_comm p i, this]

/-- The calls of the refutation exist: a single pixel of value 1 is not seen at angle 0, with zeros around it is. -/
theorem project_surrounded_fails : ∃ (u u' : Nat → Mem ℝ) (r r' : Arr3 ℝ) (k d : Nat),
    ZeroPadded 1 1 1 1 (u 0) (u' 0) ∧
    Project 1 false 1 1 1 u [0] none true .yes false true true none none r ∧
    Project 1 false 1 3 3 u' [0] none true .yes false true true none none r' ∧
    d < r.d2 ∧ r'.d2 = r.d2 + 2 * k ∧ r.get 0 0 d = 0 ∧ r'.get 0 0 (d + k) = 1 := by
  let u : Nat → Mem ℝ := fun _ _ => 1
  let u' : Nat → Mem ℝ := fun _ i => if i = 4 then 1 else 0
  obtain ⟨r, hr⟩ := project_total 1 one_pos false (oy := 1) one_pos 1 1 u [0] none true
    (pad := .yes) (by simp) false true true none none (by simp)
  obtain ⟨r', hr'⟩ := project_total 1 one_pos false (oy := 1) one_pos 3 3 u' [0] none true
    (pad := .yes) (by simp) false true true none none (by simp)
  have hz : ZeroPadded 1 1 1 1 (u 0) (u' 0) := by
    constructor
    · intro ix hx iy hy
      interval_cases ix
      interval_cases iy
      simp [u, u']
    · intro ix hx iy hy hn
      interval_cases ix <;> interval_cases iy <;> simp_all [u']
  obtain ⟨k, d, h1, h2, h3, h4⟩ := project_surrounded_loses (p := 1) (q := 1) (u := u) (u' := u') one_pos
    (by norm_num) one_pos (fun s hs => by obtain rfl : s = 0 := by omega
                                          exact hz) hr hr' (j := 0) (by simp) (by simp) one_pos
  refine ⟨u, u', r, r', k, d, hz, hr, hr', h1, h2, h3, ?_⟩
  rw [h4]
  simp [u]

end Tomopy.Sim
