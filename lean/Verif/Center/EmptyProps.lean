import Verif.Center.Entropy
import Verif.Sim.Noise
import Mathlib.Tactic.Linarith
import Mathlib.Tactic.Ring
import Mathlib.Tactic.FieldSimp
import Mathlib.Tactic.Positivity
import Mathlib.Analysis.Real.Sqrt

/-! Theorems about `find_center_pc` and `mask_empty_slice`. -/

set_option linter.unusedSectionVars false

namespace Tomopy.Center

open Tomopy.Recon

/-! ### `find_center_pc` -/

/-- Specification: the column `c` is the mirror axis of two projections half a turn apart: what the
first shows at `x` the second shows at `2c - x`.  `twice` is `2c`, which is an integer. -/
def MirrorAxis (p1 p2 : Proj) (twice : Int) : Prop := ∀ r x, p2 r x = p1 r (twice - x)

/-- Specification: `d` registers `mov` with `ref`: moved right by `d` columns it is `ref`. -/
def Registered (ref mov : Proj) (d : Int) : Prop := ∀ r x, ref r x = mov r (x - d)

/-- Without a guess: if the correlation finds a shift by which the flipped second projection is the
first, the column returned is their mirror axis. -/
theorem pc_axis {shift : ℝ → Proj → Proj} (hs0 : ∀ p, shift (-0) p = p) {pcc : Proj → Proj → ℝ}
    {n : Nat} {p1 p2 : Proj} {d : Int} (hpcc : pcc p1 (flipCols n p2) = d)
    (hreg : Registered p1 (flipCols n p2) d) :
    ∃ t : Int, MirrorAxis p1 p2 t ∧ findCenterPc shift pcc n p1 p2 none = (t : ℝ) / 2 := by
  refine ⟨n + d - 1, fun r x => ?_, ?_⟩
  · rw [hreg r]
    unfold flipCols
    congr 1
    ring
  · simp only [findCenterPc, hs0, hpcc]
    push_cast
    ring

/-- Conversely, if the two projections have a mirror axis and the correlation finds the shift that
belongs to it, that axis is returned. -/
theorem pc_finds {shift : ℝ → Proj → Proj} (hs0 : ∀ p, shift (-0) p = p) {pcc : Proj → Proj → ℝ}
    {n : Nat} {p1 p2 : Proj} {t : Int} (hm : MirrorAxis p1 p2 t) :
    Registered p1 (flipCols n p2) (t - n + 1) ∧
      (pcc p1 (flipCols n p2) = ((t - n + 1 : Int) : ℝ) →
        findCenterPc shift pcc n p1 p2 none = (t : ℝ) / 2) := by
  refine ⟨fun r x => ?_, fun h => ?_⟩
  · unfold flipCols
    rw [hm r]
    congr 1
    ring
  · simp only [findCenterPc, hs0, h]
    push_cast
    ring

/-- A column of the detector at which a projection shows something (specification). -/
def SeenIn (p : Proj) (lo hi : Int) : Prop := ∀ r x, p r x ≠ 0 → lo ≤ x ∧ x < hi

/-- With a guess whose displacement `g` from the middle is an integer, and projections that stay on
the detector when moved by it: the column returned again is the mirror axis. -/
theorem pc_guess {shift : ℝ → Proj → Proj} {pcc : Proj → Proj → ℝ} {n : Nat} {p1 p2 : Proj}
    {g d : Int} (hshift : ∀ p, shift (-(g : ℝ)) p = shiftCols n (-g) p)
    (h1 : SeenIn p1 (max 0 g) (min n (n + g))) (h2 : SeenIn p2 (max 0 g) (min n (n + g)))
    (hpcc : pcc (shiftCols n (-g) p1) (flipCols n (shiftCols n (-g) p2)) = d)
    (hreg : Registered (shiftCols n (-g) p1) (flipCols n (shiftCols n (-g) p2)) d) :
    ∃ t : Int, MirrorAxis p1 p2 t ∧
      findCenterPc shift pcc n p1 p2 (some (((n : ℝ) - 1) / 2 + g)) = (t : ℝ) / 2 := by
  have key : ∀ p, SeenIn p (max 0 g) (min n (n + g)) → ∀ r x, shiftCols n (-g) p r x = p r (x + g) := by
    intro p hp r x
    unfold shiftCols
    split_ifs with h
    · congr 1; ring
    · by_contra hne
      have := hp r (x + g) (fun h0 => hne h0.symm)
      omega
  refine ⟨n + d - 1 + 2 * g, fun r x => ?_, ?_⟩
  · have := hreg r (n + d - 1 + 2 * g - x - g)
    rw [key p1 h1] at this
    unfold flipCols at this
    rw [key p2 h2] at this
    have e1 : (n : Int) + d - 1 + 2 * g - x - g + g = n + d - 1 + 2 * g - x := by ring
    have e2 : (n : Int) - 1 - (n + d - 1 + 2 * g - x - g - d) + g = x := by ring
    rw [e1, e2] at this
    exact this.symm
  · have e : ((n : ℝ) - 1) / 2 + g - ((n : ℝ) - 1) / 2 = g := by ring
    simp only [findCenterPc, e, hshift, hpcc]
    push_cast
    ring

/-- The hypotheses are met: a bright column at 3 in the first and at 2 in the second of six
columns, guess one column right of the middle; the axis is 2.5. -/
example : ∃ t : Int, MirrorAxis (fun _ x => if x = 3 then 1 else 0) (fun _ x => if x = 2 then 1 else 0) t ∧
    findCenterPc (fun _ => shiftCols 6 (-1)) (fun _ _ => ((-2 : Int) : ℝ)) 6
      (fun _ x => if x = 3 then 1 else 0) (fun _ x => if x = 2 then 1 else 0)
      (some ((((6 : Nat) : ℝ) - 1) / 2 + ((1 : Int) : ℝ))) = (t : ℝ) / 2 := by
  refine pc_guess (d := -2) (fun _ => rfl) ?_ ?_ rfl ?_
  · intro r x hx
    have : x = 3 := by by_contra h; exact hx (if_neg h)
    subst this; decide
  · intro r x hx
    have : x = 2 := by by_contra h; exact hx (if_neg h)
    subst this; decide
  · intro r x
    simp only [shiftCols, flipCols]
    split_ifs <;> first | rfl | omega

/-! ### `mask_empty_slice` -/

theorem sum_map_mul (l : List Nat) (c : ℝ) (x : Nat → ℝ) :
    (l.map fun i => c * x i).sum = c * (l.map x).sum := by
  induction l with
  | nil => simp
  | cons a l ih => simp only [List.map_cons, List.sum_cons, ih]; ring

theorem foldl_max_mul {c : ℝ} (hc : 0 ≤ c) (l : List ℝ) (y : ℝ) :
    (l.map fun z => c * z).foldl max (c * y) = c * l.foldl max y := by
  induction l generalizing y with
  | nil => rfl
  | cons a l ih =>
    simp only [List.map_cons, List.foldl_cons]
    rw [← mul_max_of_nonneg _ _ hc, ih]

theorem maxOf_mul {c : ℝ} (hc : 0 ≤ c) (n : Nat) (x : Nat → ℝ) :
    maxOf n (fun i => c * x i) = c * maxOf n x := by
  unfold maxOf
  have h : ((List.range n).map fun i => c * x i) = ((List.range n).map x).map fun z => c * z := by
    rw [List.map_map]; rfl
  rw [h]
  cases (List.range n).map x with
  | nil => simp
  | cons a l => exact foldl_max_mul hc l a

theorem variance_const (n : Nat) (c : ℝ) (x : Nat → ℝ) (hx : ∀ i < n, x i = c) : variance n x = 0 := by
  unfold variance
  by_cases hn : n = 0
  · subst hn; simp
  · have hn' : (n : ℝ) ≠ 0 := Nat.cast_ne_zero.2 hn
    have e : (List.range n).map x = (List.range n).map fun _ => c :=
      List.map_congr_left fun i hi => hx i (List.mem_range.1 hi)
    have hsum : ((List.range n).map x).sum / n = c := by
      rw [e]; simp; field_simp
    have e2 : ((List.range n).map fun i => (x i - ((List.range n).map x).sum / n) ^ 2)
        = (List.range n).map fun _ => (0 : ℝ) :=
      List.map_congr_left fun i hi => by rw [hsum, hx i (List.mem_range.1 hi)]; simp
    rw [e2]; simp

theorem variance_nonneg (n : Nat) (x : Nat → ℝ) : 0 ≤ variance n x := by
  unfold variance
  apply div_nonneg _ (Nat.cast_nonneg n)
  apply List.sum_nonneg
  intro y hy
  obtain ⟨i, _, rfl⟩ := List.mem_map.1 hy
  positivity

/-- The mask has one entry per layer. -/
theorem mask_length (tomo : Arr3 ℝ) (t : ℝ) : (maskEmptySlice tomo t).length = tomo.d1 := by
  simp [maskEmptySlice]

/-- The mask does not depend on the unit of the data: multiplying them by a positive number changes
nothing. -/
theorem mask_scale (tomo : Arr3 ℝ) (t c : ℝ) (hc : 0 < c) :
    maskEmptySlice { tomo with get := fun p y x => c * tomo.get p y x } t = maskEmptySlice tomo t := by
  set tomo' : Arr3 ℝ := { tomo with get := fun p y x => c * tomo.get p y x } with ht
  have h1 : ∀ y x, projsSum tomo' y x = c * projsSum tomo y x := fun y x => sum_map_mul _ _ _
  have h2 : projsMax tomo' = c * projsMax tomo := by
    unfold projsMax
    simp only [h1]
    have : (fun y => maxOf tomo'.d2 fun x => c * projsSum tomo y x)
        = fun y => c * maxOf tomo.d2 fun x => projsSum tomo y x :=
      funext fun y => maxOf_mul hc.le _ _
    rw [this, maxOf_mul hc.le]
  have h3 : normSum tomo' = normSum tomo := by
    unfold normSum
    rw [h2]
    by_cases h0 : projsMax tomo = 0
    · rw [if_pos h0, if_pos (by rw [h0, mul_zero])]
    · rw [if_neg h0, if_neg (mul_ne_zero hc.ne' h0)]
      congr 1
      funext y x
      rw [h1, mul_div_mul_left _ _ hc.ne']
  unfold maskEmptySlice
  rw [h3]
  rfl

/-- A larger threshold marks no fewer layers. -/
theorem mask_mono (tomo : Arr3 ℝ) {t t' : ℝ} (h : t ≤ t') (y : Nat)
    (hy : (maskEmptySlice tomo t)[y]? = some true) : (maskEmptySlice tomo t')[y]? = some true := by
  unfold maskEmptySlice at hy ⊢
  rw [List.getElem?_map] at hy ⊢
  cases hr : (List.range tomo.d1)[y]? with
  | none => rw [hr] at hy; cases hy
  | some z =>
    rw [hr] at hy
    simp only [Option.map_some, Option.some.injEq] at hy ⊢
    cases hn : normSum tomo with
    | none => rw [hn] at hy; cases hy
    | some s =>
      rw [hn] at hy
      simp only at hy ⊢
      cases hp : profile tomo s with
      | none => rw [hp] at hy; cases hy
      | some q =>
        rw [hp] at hy
        simp only [decide_eq_true_eq] at hy ⊢
        exact hy.trans_le (mul_le_mul_of_nonneg_left h (Real.sqrt_nonneg _))

/-- A layer that shows the same value in all columns is marked, provided the data have a positive
sum somewhere and the summed profile is not constant. -/
theorem mask_uniform (tomo : Arr3 ℝ) {t : ℝ} (ht : 0 < t) {y : Nat} (hy : y < tomo.d1) {c : ℝ}
    (hc : ∀ x < tomo.d2, projsSum tomo y x = c) {s : Nat → Nat → ℝ} (hs : normSum tomo = some s)
    {q : Nat → ℝ} (hq : profile tomo s = some q) (hv : variance tomo.d2 q ≠ 0) :
    (maskEmptySlice tomo t)[y]? = some true := by
  have hsy : variance tomo.d2 (s y) = 0 := by
    unfold normSum at hs
    split_ifs at hs
    injection hs with hs
    subst hs
    exact variance_const _ (c / projsMax tomo) _ fun x hx => by
      change projsSum tomo y x / projsMax tomo = _
      rw [hc x hx]
  unfold maskEmptySlice
  rw [List.getElem?_map, List.getElem?_range hy]
  simp only [Option.map_some, hs, hq, hsy, Real.sqrt_zero, Option.some.injEq, decide_eq_true_eq]
  exact mul_pos (Real.sqrt_pos.2 (lt_of_le_of_ne (variance_nonneg _ _) hv.symm)) ht

/-- The hypotheses are met by two layers of two columns, the first uniform. -/
example : ∃ (s : Nat → Nat → ℝ) (q : Nat → ℝ),
    normSum (⟨1, 2, 2, fun _ y x => if y = 1 ∧ x = 1 then 0 else 1⟩ : Arr3 ℝ) = some s ∧
    profile (⟨1, 2, 2, fun _ y x => if y = 1 ∧ x = 1 then 0 else 1⟩ : Arr3 ℝ) s = some q ∧
    variance 2 q ≠ 0 := by
  have h : projsMax (⟨1, 2, 2, fun _ y x => if y = 1 ∧ x = 1 then 0 else 1⟩ : Arr3 ℝ) = 1 := by
    simp [projsMax, projsSum, maxOf, List.range_succ]
  refine ⟨_, _, if_neg (by rw [h]; exact one_ne_zero), if_neg ?_, ?_⟩
  · rw [h]
    simp [projsSum, maxOf, List.range_succ]
  · rw [h]
    simp [variance, projsSum, maxOf, List.range_succ]
    norm_num

/-- Thresholds up to zero mark nothing. -/
theorem mask_threshold_zero (tomo : Arr3 ℝ) {t : ℝ} (ht : t ≤ 0) (y : Nat) :
    (maskEmptySlice tomo t)[y]? ≠ some true := by
  unfold maskEmptySlice
  rw [List.getElem?_map]
  cases (List.range tomo.d1)[y]? with
  | none => simp
  | some z =>
    simp only [Option.map_some]
    cases hn : normSum tomo with
    | none => simp
    | some s =>
      cases hp : profile tomo s with
      | none => simp [hp]
      | some q =>
        simp only [hp, ne_eq, Option.some.injEq, decide_eq_true_eq, not_lt]
        exact (mul_nonpos_of_nonneg_of_nonpos (Real.sqrt_nonneg _) ht).trans (Real.sqrt_nonneg _)

/-- REFUTED: the layers are judged one by one.  With one layer the reference is that layer, and it
is never marked, whatever it shows (thresholds up to one). -/
theorem mask_single (tomo : Arr3 ℝ) {t : ℝ} (ht : t ≤ 1) (h1 : tomo.d1 = 1)
    (hpos : 0 < projsMax tomo) : maskEmptySlice tomo t = [false] := by
  have hn : normSum tomo = some fun y x => projsSum tomo y x / projsMax tomo := if_neg hpos.ne'
  have hmax : projsMax tomo = maxOf tomo.d2 fun x => projsSum tomo 0 x := by
    unfold projsMax
    rw [h1]
    rfl
  have hcol : (fun x => ((List.range tomo.d1).map fun y => projsSum tomo y x / projsMax tomo).sum)
      = fun x => (projsMax tomo)⁻¹ * projsSum tomo 0 x := by
    funext x
    rw [h1]
    simp [div_eq_inv_mul]
  have hone : maxOf tomo.d2 (fun x => (projsMax tomo)⁻¹ * projsSum tomo 0 x) = 1 := by
    rw [maxOf_mul (inv_nonneg.2 hpos.le), ← hmax, inv_mul_cancel₀ hpos.ne']
  have hp : profile tomo (fun y x => projsSum tomo y x / projsMax tomo)
      = some fun x => projsSum tomo 0 x / projsMax tomo := by
    unfold profile
    simp only [hcol, hone]
    rw [if_neg one_ne_zero]
    congr 1
    funext x
    rw [div_one, div_eq_inv_mul]
    exact congrFun hcol x
  unfold maskEmptySlice
  rw [h1, hn]
  simp only [hp, List.range_one, List.map_cons, List.map_nil, List.cons.injEq, and_true,
    decide_eq_false_iff_not, not_lt]
  have := Real.sqrt_nonneg (variance tomo.d2 fun x => projsSum tomo 0 x / projsMax tomo)
  nlinarith

/-- A single layer with a positive sum. -/
example : 0 < projsMax (⟨1, 1, 2, fun _ _ x => if x = 0 then 1 else 0⟩ : Arr3 ℝ) := by
  simp [projsMax, projsSum, maxOf, List.range_succ]

/-- REFUTED: empty layers are marked.  If no layer shows anything, none is (every comparison is
with NaN). -/
theorem mask_blank (tomo : Arr3 ℝ) (t : ℝ) (h : ∀ p y x, tomo.get p y x = 0) (y : Nat) :
    (maskEmptySlice tomo t)[y]? ≠ some true := by
  have h0 : ∀ n, maxOf n (fun _ => (0 : ℝ)) = 0 := by
    intro n
    have := maxOf_mul (c := 0) le_rfl n (fun _ => (0 : ℝ))
    simpa using this
  have hps : projsMax tomo = 0 := by
    unfold projsMax projsSum
    simp only [h]
    have : ∀ y : Nat, (maxOf tomo.d2 fun _ => ((List.range tomo.d0).map fun _ => (0 : ℝ)).sum) = 0 := by
      intro _
      have e : ((List.range tomo.d0).map fun _ => (0 : ℝ)).sum = 0 := by simp
      rw [e]; exact h0 _
    simp only [this 0]
    exact h0 _
  unfold maskEmptySlice
  rw [List.getElem?_map]
  have : normSum tomo = none := if_pos hps
  cases (List.range tomo.d1)[y]? with
  | none => simp
  | some z => simp [this]

end Tomopy.Center
