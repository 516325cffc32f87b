import Verif.Iter.Turn
import Verif.Sim.Props

/-!
# Projections of turned objects (C164) and along the axes (C165)
-/

set_option linter.unusedSectionVars false

namespace Tomopy.Sim

open Tomopy.Iter Tomopy.Mproc Tomopy.Recon
open Real (pi)

/-! ## C164 for the Python function -/

theorem projectWidth_swap {ox oz : Nat} {pad : Pad} (h : pad = .yes ∨ ox = oz) :
    projectWidth oz ox pad = projectWidth ox oz pad := by
  rcases h with rfl | rfl
  · simp only [projectWidth, add_comm ((oz : ℝ) * oz)]
  · rfl

/-- **C164 (partial)** for the Python function: the same projections for the turned object and the angles increased
by `π/2`, for any number of cores and schedule in the two calls. -/
theorem project_turned_py_partial {cpu : Nat} {debug : Bool} {oy ox oz : Nat} {u u' : Nat → Mem ℝ} {theta : List ℝ}
    {emission : Bool} {pad : Pad} {sino : Bool} {n₁ k₁ n₂ k₂ : Option Nat} {so₁ sc₁ so₂ sc₂ : Bool}
    {r r' : Arr3 ℝ} (hpad : pad = .yes ∨ ox = oz)
    (hu : ∀ s < oy, Turned 1 ox oz (u s) (u' s))
    (hgen : ∀ dx, projectWidth ox oz pad = .ok dx →
      Generic ox oz dx 1 theta.length (fun _ => (dx : ℝ) / 2) fun p => theta.getD p 0)
    (h : Project cpu debug oy ox oz u theta none emission pad sino so₁ sc₁ n₁ k₁ r)
    (h' : Project cpu debug oy oz ox u' (theta.map (· + pi / 2)) none emission pad sino so₂ sc₂ n₂ k₂ r') :
    (r'.d0, r'.d1, r'.d2) = (r.d0, r.d1, r.d2) ∧
      ∀ i < r.d0, ∀ j < r.d1, ∀ k < r.d2, r'.get i j k = r.get i j k := by
  obtain ⟨dx, hw, hd, hv⟩ := project_spec h (Or.inl rfl)
  obtain ⟨dx', hw', hd', hv'⟩ := project_spec h' (Or.inl rfl)
  rw [projectWidth_swap hpad, hw, Except.ok.injEq] at hw'
  subst hw'
  rw [List.length_map] at hd' hv'
  have key : ∀ s < oy, ∀ p < theta.length, ∀ d < dx,
      rayIntegral oz ox dx (theta.map (· + pi / 2)) ((getCenter oy dx none).getD 0 0) p d (u' s) =
        rayIntegral ox oz dx theta ((getCenter oy dx none).getD 0 0) p d (u s) := by
    intro s hs p hp d hd
    have hc : (getCenter oy dx (none : Option (List ℝ))).getD 0 0 = (dx : ℝ) / 2 :=
      getCenter_default _ _ _ (by omega)
    have hrel := (tracer_turned (hgen dx hw)).ray 0 one_pos p hp d hd
    have hok := tracer_geomOk ox oz dx 1 theta.length (fun _ => (dx : ℝ) / 2) (fun p => theta.getD p 0)
    unfold rayIntegral
    rw [hc]
    have := lineSum_moved (D := ⟨1, theta.length, dx, ox * oz⟩) (s := 0)
      (fun e he => (hok 0 one_pos p hp d hd e he).1) hrel
      (((turned_iff 1 theta.length dx ox oz (u s) (u' s)).mp (hu s hs)) 0 one_pos)
    rw [← this, Nat.mul_comm oz ox]
    dsimp only
    unfold tracerGeom
    have e : (theta.map (· + pi / 2)).getD p 0 = theta.getD p 0 + pi / 2 := by
      simp [List.getD_eq_getElem?_getD, List.getElem?_map, List.getElem?_eq_getElem hp]
    simp only [e]
  refine ⟨hd'.trans hd.symm, ?_⟩
  cases sino
  · simp only [Bool.false_eq_true, if_false, Prod.mk.injEq] at hd hv hv'
    obtain ⟨e0, e1, e2⟩ := hd
    intro i hi j hj k hk
    rw [e0] at hi
    rw [e1] at hj
    rw [e2] at hk
    rw [hv j hj i hi k hk, hv' j hj i hi k hk, key j hj i hi k hk]
  · simp only [if_true, Prod.mk.injEq] at hd hv hv'
    obtain ⟨e0, e1, e2⟩ := hd
    intro i hi j hj k hk
    rw [e0] at hi
    rw [e1] at hj
    rw [e2] at hk
    rw [hv i hi j hj k hk, hv' i hi j hj k hk, key i hi j hj k hk]

/-- **C164 (partial)** for the Python function: the same projections for the mirrored object and the negative angles. -/
theorem project_mirrored_py_partial {cpu : Nat} {debug : Bool} {oy ox oz : Nat} {u u' : Nat → Mem ℝ} {theta : List ℝ}
    {emission : Bool} {pad : Pad} {sino : Bool} {n₁ k₁ n₂ k₂ : Option Nat} {so₁ sc₁ so₂ sc₂ : Bool}
    {r r' : Arr3 ℝ} (hu : ∀ s < oy, Mirrored 1 ox oz (u s) (u' s))
    (hgen : ∀ dx, projectWidth ox oz pad = .ok dx →
      Generic ox oz dx 1 theta.length (fun _ => (dx : ℝ) / 2) fun p => theta.getD p 0)
    (h : Project cpu debug oy ox oz u theta none emission pad sino so₁ sc₁ n₁ k₁ r)
    (h' : Project cpu debug oy ox oz u' (theta.map fun t => -t) none emission pad sino so₂ sc₂ n₂ k₂ r') :
    (r'.d0, r'.d1, r'.d2) = (r.d0, r.d1, r.d2) ∧
      ∀ i < r.d0, ∀ j < r.d1, ∀ k < r.d2, r'.get i j k = r.get i j k := by
  obtain ⟨dx, hw, hd, hv⟩ := project_spec h (Or.inl rfl)
  obtain ⟨dx', hw', hd', hv'⟩ := project_spec h' (Or.inl rfl)
  rw [hw, Except.ok.injEq] at hw'
  subst hw'
  rw [List.length_map] at hd' hv'
  have key : ∀ s < oy, ∀ p < theta.length, ∀ d < dx,
      rayIntegral ox oz dx (theta.map fun t => -t) ((getCenter oy dx none).getD 0 0) p d (u' s) =
        rayIntegral ox oz dx theta ((getCenter oy dx none).getD 0 0) p d (u s) := by
    intro s hs p hp d hd
    have hc : (getCenter oy dx (none : Option (List ℝ))).getD 0 0 = (dx : ℝ) / 2 :=
      getCenter_default _ _ _ (by omega)
    have hrel := (tracer_mirrored (hgen dx hw)).ray 0 one_pos p hp d hd
    have hok := tracer_geomOk ox oz dx 1 theta.length (fun _ => (dx : ℝ) / 2) (fun p => theta.getD p 0)
    unfold rayIntegral
    rw [hc]
    have := lineSum_moved (D := ⟨1, theta.length, dx, ox * oz⟩) (s := 0)
      (fun e he => (hok 0 one_pos p hp d hd e he).1) hrel
      (((mirrored_iff 1 theta.length dx ox oz (u s) (u' s)).mp (hu s hs)) 0 one_pos)
    rw [← this]
    dsimp only
    unfold tracerGeom
    have e : (theta.map fun t => -t).getD p 0 = -theta.getD p 0 := by
      simp [List.getD_eq_getElem?_getD, List.getElem?_map, List.getElem?_eq_getElem hp]
    simp only [e]
  refine ⟨hd'.trans hd.symm, ?_⟩
  cases sino
  · simp only [Bool.false_eq_true, if_false, Prod.mk.injEq] at hd hv hv'
    obtain ⟨e0, e1, e2⟩ := hd
    intro i hi j hj k hk
    rw [e0] at hi
    rw [e1] at hj
    rw [e2] at hk
    rw [hv j hj i hi k hk, hv' j hj i hi k hk, key j hj i hi k hk]
  · simp only [if_true, Prod.mk.injEq] at hd hv hv'
    obtain ⟨e0, e1, e2⟩ := hd
    intro i hi j hj k hk
    rw [e0] at hi
    rw [e1] at hj
    rw [e2] at hk
    rw [hv i hi j hj k hk, hv' i hi j hj k hk, key i hi j hj k hk]

/-- A concrete case: for square `m × m` objects without padding the hypothesis holds at angle 0. -/
example (m dx : Nat) (h : projectWidth m m .no = .ok dx) :
    Generic m m dx 1 1 (fun _ => (dx : ℝ) / 2) fun p => ([0] : List ℝ).getD p 0 := by
  simp only [projectWidth, Except.ok.injEq] at h
  subst h
  intro p hp
  obtain rfl : p = 0 := by omega
  exact generic_zero m 1 0 one_pos

/-! ## C165: projections along the axes -/

open Classical in
/-- The exact ray sums at angle 0: the sum of the object along its second axis, at the place
`floor (d + (1 + oz - dx) / 2)` of the third one, if that ray is at least 1/100 inside. -/
theorem rayIntegral_axis0 {ox oz dx : Nat} (hr : 0 < ox + oz) {theta : List ℝ} {p d : Nat}
    (hp : theta.getD p 0 = 0) (u : Mem ℝ) :
    rayIntegral ox oz dx theta ((dx : ℝ) / 2) p d u =
      if Ray.Margin oz ((d : ℝ) + 1 / 2 - (dx : ℝ) / 2) then
        ∑ i ∈ Finset.range ox, u (i * oz + ⌊(d : ℝ) + 1 / 2 - (dx : ℝ) / 2 + (oz : ℝ) / 2⌋.toNat) else 0 := by
  unfold rayIntegral tracerGeom
  simp only [hp]
  obtain ⟨q, -, hq⟩ := Ray.rayTrace_flag Ray.clear_zero
  rw [hq, Real.sin_zero, Real.cos_zero, Ray.trace_axis0 Ray.hypot_isHyp q ox oz hr, Ray.rayY_default,
    Option.getD_some]
  by_cases hm : Ray.Margin oz ((d : ℝ) + 1 / 2 - (dx : ℝ) / 2)
  · rw [if_pos hm, if_pos hm]
    unfold lineSum
    rw [List.map_map, List.map_map, sum_range_list]
    refine Finset.sum_congr rfl fun i _ => ?_
    have h0 : 0 ≤ ⌊(d : ℝ) + 1 / 2 - (dx : ℝ) / 2 + (oz : ℝ) / 2⌋ := by
      rw [Int.floor_nonneg]
      linarith [hm.1]
    simp only [Function.comp_apply, mul_one, Nat.zero_mul, Nat.add_zero]
    congr 1
    have h1 : (0 : Int) ≤ (i : Int) * oz := by positivity
    rw [Int.toNat_add h0 h1, Nat.add_comm]
    congr 1
  · rw [if_neg hm, if_neg hm]
    rfl

open Classical in
/-- The exact ray sums at angle `π/2`: sums of the object along its third axis. -/
theorem rayIntegral_axis1 {ox oz dx : Nat} (hr : 0 < ox + oz) {theta : List ℝ} {p d : Nat}
    (hp : theta.getD p 0 = pi / 2) (u : Mem ℝ) :
    rayIntegral ox oz dx theta ((dx : ℝ) / 2) p d u =
      if Ray.Margin ox (-((d : ℝ) + 1 / 2 - (dx : ℝ) / 2)) then
        ∑ j ∈ Finset.range oz, u (⌊-((d : ℝ) + 1 / 2 - (dx : ℝ) / 2) + (ox : ℝ) / 2⌋.toNat * oz + j) else 0 := by
  unfold rayIntegral tracerGeom
  simp only [hp]
  obtain ⟨q, -, hq⟩ := Ray.rayTrace_flag Ray.clear_half
  obtain ⟨segs, e1, e2⟩ := Ray.trace_axis1 Ray.hypot_isHyp q ox oz hr ((d : ℝ) + 1 / 2 - (dx : ℝ) / 2)
  rw [hq, Real.sin_pi_div_two, Real.cos_pi_div_two, Ray.rayY_default, e1, Option.getD_some,
    lineSum_perm' (e2.map _)]
  by_cases hm : Ray.Margin ox (-((d : ℝ) + 1 / 2 - (dx : ℝ) / 2))
  · rw [if_pos hm, if_pos hm]
    unfold lineSum
    rw [List.map_map, List.map_map, sum_range_list]
    refine Finset.sum_congr rfl fun j _ => ?_
    have h0 : 0 ≤ ⌊-((d : ℝ) + 1 / 2 - (dx : ℝ) / 2) + (ox : ℝ) / 2⌋ := by
      rw [Int.floor_nonneg]
      linarith [hm.1]
    simp only [Function.comp_apply, mul_one, Nat.zero_mul, Nat.add_zero]
    congr 1
    have h1 : (0 : Int) ≤ ⌊-((d : ℝ) + 1 / 2 - (dx : ℝ) / 2) + (ox : ℝ) / 2⌋ * oz := by positivity
    rw [Int.toNat_add (by positivity) h1, Nat.add_comm, Int.toNat_natCast]
    congr 1
    rw [Int.toNat_mul h0 (by positivity), Int.toNat_natCast]
  · rw [if_neg hm, if_neg hm]
    rfl

/-- **C165 (partial)**: at angle 0 every detector pixel holds the sum of one line of the object along its
second axis, if the detector is at least as wide as the object and both widths are even or both odd. -/
theorem project_axis0_partial {ox oz k : Nat} (hr : 0 < ox) {theta : List ℝ} {p d : Nat}
    (hp : theta.getD p 0 = 0) (u : Mem ℝ) :
    rayIntegral ox oz (oz + 2 * k) theta (((oz + 2 * k : Nat) : ℝ) / 2) p d u =
      if k ≤ d ∧ d < k + oz then ∑ i ∈ Finset.range ox, u (i * oz + (d - k)) else 0 := by
  rw [rayIntegral_axis0 (by omega) hp]
  have e : (d : ℝ) + 1 / 2 - ((oz + 2 * k : Nat) : ℝ) / 2 + (oz : ℝ) / 2 = (d : ℝ) - k + 1 / 2 := by
    push_cast; ring
  have hm : Ray.Margin oz ((d : ℝ) + 1 / 2 - ((oz + 2 * k : Nat) : ℝ) / 2) ↔ k ≤ d ∧ d < k + oz := by
    unfold Ray.Margin
    push_cast
    constructor
    · rintro ⟨h1, h2⟩
      constructor
      · by_contra hc
        have : (d : ℝ) + 1 ≤ k := by exact_mod_cast not_le.mp hc
        linarith
      · have : (d : ℝ) < k + oz := by linarith
        exact_mod_cast this
    · rintro ⟨h1, h2⟩
      have h1' : (k : ℝ) ≤ d := by exact_mod_cast h1
      have h2' : (d : ℝ) + 1 ≤ k + oz := by exact_mod_cast h2
      constructor <;> linarith
  by_cases hc : k ≤ d ∧ d < k + oz
  · rw [if_pos hc, if_pos (hm.mpr hc), e]
    have hf : ⌊(d : ℝ) - k + 1 / 2⌋ = ((d - k : Nat) : Int) := by
      rw [Int.floor_eq_iff]
      push_cast [Nat.cast_sub hc.1]
      constructor <;> linarith
    rw [hf, Int.toNat_natCast]
  · rw [if_neg hc, if_neg fun h => hc (hm.mp h)]

/-- **C165 (refutation)**: if one width is even and the other odd, the first line of the object, `obj[s, :, 0]`,
is not seen by any detector pixel at angle 0; the others are. -/
theorem project_axis0_missing {ox oz k : Nat} (hr : 0 < ox) {theta : List ℝ} {p d : Nat}
    (hp : theta.getD p 0 = 0) (u : Mem ℝ) :
    rayIntegral ox oz (oz + 2 * k + 1) theta (((oz + 2 * k + 1 : Nat) : ℝ) / 2) p d u =
      if k < d ∧ d < k + oz then ∑ i ∈ Finset.range ox, u (i * oz + (d - k)) else 0 := by
  rw [rayIntegral_axis0 (by omega) hp]
  have e : (d : ℝ) + 1 / 2 - ((oz + 2 * k + 1 : Nat) : ℝ) / 2 + (oz : ℝ) / 2 = (d : ℝ) - k := by
    push_cast; ring
  have hm : Ray.Margin oz ((d : ℝ) + 1 / 2 - ((oz + 2 * k + 1 : Nat) : ℝ) / 2) ↔ k < d ∧ d < k + oz := by
    unfold Ray.Margin
    push_cast
    constructor
    · rintro ⟨h1, h2⟩
      constructor
      · have : (k : ℝ) < d := by linarith
        exact_mod_cast this
      · have : (d : ℝ) < k + oz := by linarith
        exact_mod_cast this
    · rintro ⟨h1, h2⟩
      have h1' : (k : ℝ) + 1 ≤ d := by exact_mod_cast h1
      have h2' : (d : ℝ) + 1 ≤ k + oz := by exact_mod_cast h2
      constructor <;> linarith
  by_cases hc : k < d ∧ d < k + oz
  · rw [if_pos hc, if_pos (hm.mpr hc), e]
    have hf : ⌊(d : ℝ) - k⌋ = ((d - k : Nat) : Int) := by
      rw [Int.floor_eq_iff]
      push_cast [Nat.cast_sub hc.1.le]
      constructor <;> linarith
    rw [hf, Int.toNat_natCast]
  · rw [if_neg hc, if_neg fun h => hc (hm.mp h)]

/-- **C165 (partial)**: the same at angle `π/2`, along the third axis and counted from the other end. -/
theorem project_axis1_partial {ox oz k : Nat} (hr : 0 < oz) {theta : List ℝ} {p d : Nat}
    (hp : theta.getD p 0 = pi / 2) (u : Mem ℝ) :
    rayIntegral ox oz (ox + 2 * k) theta (((ox + 2 * k : Nat) : ℝ) / 2) p d u =
      if k ≤ d ∧ d < k + ox then ∑ j ∈ Finset.range oz, u ((k + ox - 1 - d) * oz + j) else 0 := by
  rw [rayIntegral_axis1 (by omega) hp]
  have e : -((d : ℝ) + 1 / 2 - ((ox + 2 * k : Nat) : ℝ) / 2) + (ox : ℝ) / 2 = (k : ℝ) + ox - 1 - d + 1 / 2 := by
    push_cast; ring
  have hm : Ray.Margin ox (-((d : ℝ) + 1 / 2 - ((ox + 2 * k : Nat) : ℝ) / 2)) ↔ k ≤ d ∧ d < k + ox := by
    unfold Ray.Margin
    push_cast
    constructor
    · rintro ⟨h1, h2⟩
      constructor
      · by_contra hc
        have : (d : ℝ) + 1 ≤ k := by exact_mod_cast not_le.mp hc
        linarith
      · have : (d : ℝ) < k + ox := by linarith
        exact_mod_cast this
    · rintro ⟨h1, h2⟩
      have h1' : (k : ℝ) ≤ d := by exact_mod_cast h1
      have h2' : (d : ℝ) + 1 ≤ k + ox := by exact_mod_cast h2
      constructor <;> linarith
  by_cases hc : k ≤ d ∧ d < k + ox
  · rw [if_pos hc, if_pos (hm.mpr hc), e]
    have hf : ⌊(k : ℝ) + ox - 1 - d + 1 / 2⌋ = ((k + ox - 1 - d : Nat) : Int) := by
      rw [Int.floor_eq_iff]
      have : ((k + ox - 1 - d : Nat) : ℝ) = (k : ℝ) + ox - 1 - d := by
        rw [Nat.cast_sub (by omega), Nat.cast_sub (by omega)]
        push_cast
        ring
      rw [Int.cast_natCast, this]
      constructor <;> linarith
    rw [hf, Int.toNat_natCast]
  · rw [if_neg hc, if_neg fun h => hc (hm.mp h)]

/-- **C165 (refutation)** at angle `π/2`: the line `obj[s, 0, :]` is missing. -/
theorem project_axis1_missing {ox oz k : Nat} (hr : 0 < oz) {theta : List ℝ} {p d : Nat}
    (hp : theta.getD p 0 = pi / 2) (u : Mem ℝ) :
    rayIntegral ox oz (ox + 2 * k + 1) theta (((ox + 2 * k + 1 : Nat) : ℝ) / 2) p d u =
      if k < d ∧ d < k + ox then ∑ j ∈ Finset.range oz, u ((k + ox - d) * oz + j) else 0 := by
  rw [rayIntegral_axis1 (by omega) hp]
  have e : -((d : ℝ) + 1 / 2 - ((ox + 2 * k + 1 : Nat) : ℝ) / 2) + (ox : ℝ) / 2 = (k : ℝ) + ox - d := by
    push_cast; ring
  have hm : Ray.Margin ox (-((d : ℝ) + 1 / 2 - ((ox + 2 * k + 1 : Nat) : ℝ) / 2)) ↔ k < d ∧ d < k + ox := by
    unfold Ray.Margin
    push_cast
    constructor
    · rintro ⟨h1, h2⟩
      constructor
      · have : (k : ℝ) < d := by linarith
        exact_mod_cast this
      · have : (d : ℝ) < k + ox := by linarith
        exact_mod_cast this
    · rintro ⟨h1, h2⟩
      have h1' : (k : ℝ) + 1 ≤ d := by exact_mod_cast h1
      have h2' : (d : ℝ) + 1 ≤ k + ox := by exact_mod_cast h2
      constructor <;> linarith
  by_cases hc : k < d ∧ d < k + ox
  · rw [if_pos hc, if_pos (hm.mpr hc), e]
    have hf : ⌊(k : ℝ) + ox - d⌋ = ((k + ox - d : Nat) : Int) := by
      rw [Int.floor_eq_iff]
      have : ((k + ox - d : Nat) : ℝ) = (k : ℝ) + ox - d := by
        rw [Nat.cast_sub (by omega)]
        push_cast
        ring
      rw [Int.cast_natCast, this]
      constructor <;> linarith
    rw [hf, Int.toNat_natCast]
  · rw [if_neg hc, if_neg fun h => hc (hm.mp h)]

/-! ## C165 for the Python function -/

/-- With `pad=True` the detector is an even number of pixels wide, and wider than the object. -/
theorem pad_margin {ox oz dx : Nat} (hw : projectWidth ox oz .yes = .ok dx) : 2 ∣ dx ∧ ox + 2 ≤ dx ∧ oz + 2 ≤ dx := by
  obtain ⟨h1, h2, -⟩ := pad_width hw
  refine ⟨h1, ?_, ?_⟩
  · have : (ox : ℝ) ≤ Real.sqrt ((ox : ℝ) ^ 2 + (oz : ℝ) ^ 2) :=
      Real.le_sqrt_of_sq_le (by nlinarith [sq_nonneg (oz : ℝ)])
    have : ((ox + 2 : Nat) : ℝ) ≤ dx := by push_cast; linarith
    exact_mod_cast this
  · have : (oz : ℝ) ≤ Real.sqrt ((ox : ℝ) ^ 2 + (oz : ℝ) ^ 2) :=
      Real.le_sqrt_of_sq_le (by nlinarith [sq_nonneg (ox : ℝ)])
    have : ((oz + 2 : Nat) : ℝ) ≤ dx := by push_cast; linarith
    exact_mod_cast this

section Py

variable {cpu : Nat} {debug : Bool} {oy ox oz : Nat} {u : Nat → Mem ℝ} {theta : List ℝ} {so sc : Bool}
  {n k : Option Nat} {r : Arr3 ℝ} {p : Nat}

/-- What `project` with default arguments stores at angle 0, whatever the widths: the sums over
`u[s, :, d - (dx - oz) / 2]`, without the first of them if `oz` is odd. -/
theorem project_axis0_exact (h : Project cpu debug oy ox oz u theta none true .yes false so sc n k r) (hox : 0 < ox)
    (hp : p < theta.length) (h0 : theta.getD p 0 = 0) :
    oz + 2 ≤ r.d2 ∧ ∀ s < oy, ∀ d < r.d2, r.get p s d =
      if (r.d2 - oz) / 2 + oz % 2 ≤ d ∧ d < (r.d2 - oz) / 2 + oz then
        ∑ i ∈ Finset.range ox, u s (i * oz + (d - (r.d2 - oz) / 2)) else 0 := by
  obtain ⟨dx, hw, hd, hv⟩ := project_spec h (Or.inl rfl)
  simp only [Bool.false_eq_true, if_false, Prod.mk.injEq, if_true] at hd hv
  obtain ⟨-, -, e⟩ := hd
  rw [e]
  obtain ⟨h2, -, hz⟩ := pad_margin hw
  refine ⟨hz, fun s hs d hd => ?_⟩
  rw [hv s hs p hp d hd, getCenter_default _ _ _ (by omega)]
  rcases Nat.mod_two_eq_zero_or_one oz with hm | hm
  · obtain ⟨j, rfl⟩ : ∃ j, dx = oz + 2 * j := ⟨(dx - oz) / 2, by omega⟩
    rw [project_axis0_partial hox h0, show (oz + 2 * j - oz) / 2 = j by omega, hm, Nat.add_zero]
  · obtain ⟨j, rfl⟩ : ∃ j, dx = oz + 2 * j + 1 := ⟨(dx - oz) / 2, by omega⟩
    rw [project_axis0_missing hox h0, show (oz + 2 * j + 1 - oz) / 2 = j by omega, hm]
    rfl

/-- The same at angle `π/2`: the sums over `u[s, (dx - ox) / 2 + ox - 1 - d, :]`; if `ox` is odd the sums
are one pixel further and `u[s, 0, :]` is not seen. -/
theorem project_axis1_exact (h : Project cpu debug oy ox oz u theta none true .yes false so sc n k r) (hoz : 0 < oz)
    (hp : p < theta.length) (h0 : theta.getD p 0 = pi / 2) :
    ox + 2 ≤ r.d2 ∧ ∀ s < oy, ∀ d < r.d2, r.get p s d =
      if (r.d2 - ox) / 2 + ox % 2 ≤ d ∧ d < (r.d2 - ox) / 2 + ox then
        ∑ j ∈ Finset.range oz, u s (((r.d2 - ox) / 2 + ox - 1 + ox % 2 - d) * oz + j) else 0 := by
  obtain ⟨dx, hw, hd, hv⟩ := project_spec h (Or.inl rfl)
  simp only [Bool.false_eq_true, if_false, Prod.mk.injEq, if_true] at hd hv
  obtain ⟨-, -, e⟩ := hd
  rw [e]
  obtain ⟨h2, hx, -⟩ := pad_margin hw
  refine ⟨hx, fun s hs d hd => ?_⟩
  rw [hv s hs p hp d hd, getCenter_default _ _ _ (by omega)]
  rcases Nat.mod_two_eq_zero_or_one ox with hm | hm
  · obtain ⟨j, rfl⟩ : ∃ j, dx = ox + 2 * j := ⟨(dx - ox) / 2, by omega⟩
    rw [project_axis1_partial hoz h0, show (ox + 2 * j - ox) / 2 = j by omega, hm, Nat.add_zero, Nat.add_zero]
  · obtain ⟨j, rfl⟩ : ∃ j, dx = ox + 2 * j + 1 := ⟨(dx - ox) / 2, by omega⟩
    rw [project_axis1_missing hoz h0, show (ox + 2 * j + 1 - ox) / 2 = j by omega, hm,
      show j + ox - 1 + 1 - d = j + ox - d by omega]
    rfl

/-- Sum of a detector row at angle 0: the total of the object without the lines that are not seen. -/
theorem project_axis0_total (h : Project cpu debug oy ox oz u theta none true .yes false so sc n k r) (hox : 0 < ox)
    (hp : p < theta.length) (h0 : theta.getD p 0 = 0) {s : Nat} (hs : s < oy) :
    ∑ d ∈ Finset.range r.d2, r.get p s d =
      ∑ iy ∈ Finset.Ico (oz % 2) oz, ∑ i ∈ Finset.range ox, u s (i * oz + iy) := by
  obtain ⟨hz, hv⟩ := project_axis0_exact h hox hp h0
  rw [Finset.sum_congr rfl fun d hd => hv s hs d (Finset.mem_range.mp hd), ← Finset.sum_filter]
  symm
  refine Finset.sum_bij (fun iy _ => iy + (r.d2 - oz) / 2) ?_ ?_ ?_ ?_
  · intro iy hi
    rw [Finset.mem_Ico] at hi
    rw [Finset.mem_filter, Finset.mem_range]
    omega
  · intro a _ b _ e
    exact Nat.add_right_cancel e
  · intro d hd
    rw [Finset.mem_filter, Finset.mem_range] at hd
    exact ⟨d - (r.d2 - oz) / 2, Finset.mem_Ico.mpr (by omega), by omega⟩
  · intro iy _
    rw [Nat.add_sub_cancel]

end Py

/-- **C165 (refutation)**: some call of `project` with default arguments on a 3 × 3 object of ones at angle 0
gives a row with total 6 instead of 9. -/
theorem project_axis0_loses : ∃ r : Arr3 ℝ,
    Project 1 false 1 3 3 (fun _ _ => 1) [0] none true .yes false true true none none r ∧
      ∑ d ∈ Finset.range r.d2, r.get 0 0 d = 6 := by
  obtain ⟨r, hr⟩ := project_total 1 one_pos false (oy := 1) one_pos 3 3 (fun _ _ => (1 : ℝ)) [0] none true
    (pad := .yes) (by simp) false true true none none (by simp)
  refine ⟨r, hr, ?_⟩
  rw [project_axis0_total hr (by norm_num) (p := 0) (by simp) (by simp) (by norm_num)]
  norm_num [Finset.sum_const]

/-- **C164 (refutation)**: an object with ones in its first line along axis 1 projects to nothing at angle 0;
the object turned by a quarter turn has ones in its last row and projects to something at angle `π/2`. -/
theorem project_turned_fails : ∃ (u u' : Nat → Mem ℝ) (r r' : Arr3 ℝ),
    Turned 1 3 3 (u 0) (u' 0) ∧
    Project 1 false 1 3 3 u [0] none true .yes false true true none none r ∧
    Project 1 false 1 3 3 u' [pi / 2] none true .yes false true true none none r' ∧
    r.d2 = r'.d2 ∧ (∀ d < r.d2, r.get 0 0 d = 0) ∧ ∃ d < r'.d2, r'.get 0 0 d = 3 := by
  let u : Nat → Mem ℝ := fun _ i => if i % 3 = 0 then 1 else 0
  let u' : Nat → Mem ℝ := fun _ i => if i / 3 = 2 then 1 else 0
  obtain ⟨r, hr⟩ := project_total 1 one_pos false (oy := 1) one_pos 3 3 u [0] none true
    (pad := .yes) (by simp) false true true none none (by simp)
  obtain ⟨r', hr'⟩ := project_total 1 one_pos false (oy := 1) one_pos 3 3 u' [pi / 2] none true
    (pad := .yes) (by simp) false true true none none (by simp)
  have hd : r.d2 = r'.d2 := by
    obtain ⟨dx, hw, hd, -⟩ := project_spec hr (Or.inl rfl)
    obtain ⟨dx', hw', hd', -⟩ := project_spec hr' (Or.inl rfl)
    simp only [Bool.false_eq_true, if_false, Prod.mk.injEq] at hd hd'
    rw [hw, Except.ok.injEq] at hw'
    rw [hd.2.2, hd'.2.2, hw']
  refine ⟨u, u', r, r', ?_, hr, hr', hd, ?_, ?_⟩
  · intro s hs ix hx iy hy
    obtain rfl : s = 0 := by omega
    simp only [u, u']
    interval_cases ix <;> interval_cases iy <;> norm_num
  · intro d hd
    rw [(project_axis0_exact hr (by norm_num) (p := 0) (by simp) (by simp)).2 0 one_pos d hd]
    split
    · next hc =>
      refine Finset.sum_eq_zero fun i _ => ?_
      simp only [u]
      rw [if_neg (by omega)]
    · rfl
  · obtain ⟨h1, h2⟩ := project_axis1_exact hr' (by norm_num) (p := 0) (by simp) (by simp)
    refine ⟨(r'.d2 - 3) / 2 + 1, by omega, ?_⟩
    rw [h2 0 one_pos _ (by omega), if_pos (by omega),
      show (r'.d2 - 3) / 2 + 3 - 1 + 3 % 2 - ((r'.d2 - 3) / 2 + 1) = 2 by omega]
    simp only [u', Finset.sum_range_succ, Finset.sum_range_zero]
    norm_num

end Tomopy.Sim
