import Verif.Stripe.Detect

/-! Stripe detection on mirrored projections (C191). -/
set_option linter.unusedSectionVars false

namespace Tomopy.Sym
open Tomopy.Stripe Tomopy.Par Tomopy.Num

variable {K : Type} [LinearOrder K] [Field K] [IsStrictOrderedRing K] [FloorRing K]

/-- The volume with its columns in the opposite order. -/
def mirX (n : Nat) (X : Vol K) : Vol K := fun i j k => X (n - 1 - i) j k

theorem abs_specGrad_mirX (d : DetectArgs) (X : Vol K) (i j k : Int) (h0 : 0 ≤ i)
    (h1 : i + 2 < d.dX) :
    |specGrad d (mirX d.dX X) i j k| = |specGrad d X (d.dX - 1 - i - 2) j k| := by
  unfold specGrad mirX
  rw [if_pos h1, if_pos (by omega), abs_sub_comm]
  congr 2
  · congr 1; omega
  · congr 1; omega

theorem sum_ints_neg (r : Int) (f : Int → K) :
    ((ints (-r) (-1)).map f).sum = ((ints 1 r).map fun b => f (-b)).sum := by
  unfold ints
  rw [List.map_map, List.map_map, show (-1 + 1 - -r) = r by ring, show (r + 1 - 1) = r by ring,
    ← List.sum_reverse, ← List.map_reverse]
  congr 1
  apply List.ext_getElem
  · simp
  · intro n a b
    simp only [List.length_map, List.length_reverse, List.length_range] at a b
    simp only [List.getElem_map, List.getElem_reverse, List.getElem_range, Function.comp_apply,
      List.length_range]
    congr 1
    omega

theorem mem_ints {a b x : Int} : x ∈ ints a b ↔ a ≤ x ∧ x ≤ b := by
  rw [← intRange_eq, mem_intRange]

theorem specPlate_mirX (d : DetectArgs) (X : Vol K) (i j k : Int) (h0 : 0 ≤ i)
    (h1 : i + 2 < d.dX) :
    specPlate d (mirX d.dX X) i j k = specPlate d X (d.dX - 1 - i - 2) j k := by
  unfold specPlate
  simp only [abs_specGrad_mirX d X i _ _ h0 h1]

theorem specRight_mirX (d : DetectArgs) (X : Vol K) (i j k : Int) (h0 : 0 ≤ i)
    (h1 : i + d.radius + 2 < d.dX) :
    specRight d (mirX d.dX X) i j k = specLeft d X (d.dX - 1 - i - 2) j k := by
  unfold specRight specLeft
  congr 2
  refine List.map_congr_left fun a _ => ?_
  rw [sum_ints_neg]
  congr 1
  refine List.map_congr_left fun b hb => ?_
  rw [mem_ints] at hb
  rw [if_pos (by omega), if_pos (by omega), abs_specGrad_mirX d X _ _ _ (by omega) (by omega)]
  congr 2
  omega

theorem specLeft_mirX (d : DetectArgs) (X : Vol K) (i j k : Int) (h0 : d.radius ≤ i)
    (h1 : i + 2 < d.dX) :
    specLeft d (mirX d.dX X) i j k = specRight d X (d.dX - 1 - i - 2) j k := by
  unfold specRight specLeft
  congr 2
  refine List.map_congr_left fun a _ => ?_
  rw [sum_ints_neg]
  congr 1
  refine List.map_congr_left fun b hb => ?_
  rw [mem_ints] at hb
  rw [if_pos (by omega), if_pos (by omega), abs_specGrad_mirX d X _ _ _ (by omega) (by omega)]
  congr 2
  omega

theorem specMean_nonneg (d : DetectArgs) (hd : Fits d) (X : Vol K)
    (hpos : ∀ i j k, InD d i j k → 0 ≤ X i j k) (i j k : Int) (hin : InD d i j k) :
    0 ≤ specMean d X i j k := by
  obtain ⟨f1, f2, f3, f4, f5, f6, f7⟩ := id hd
  obtain ⟨h1, h2, h3, h4, u1, u2⟩ := hin
  obtain ⟨p1, q1⟩ := mir_bounds (h := 1) (d := -1) h1 h2 (by omega) (by omega) (by omega)
  obtain ⟨p2, q2⟩ := mir_bounds (h := 1) (d := 1) h1 h2 (by omega) (by omega) (by omega)
  obtain ⟨p3, q3⟩ := mir_bounds (h := 1) (d := -1) h3 h4 (by omega) (by omega) (by omega)
  obtain ⟨p4, q4⟩ := mir_bounds (h := 1) (d := 1) h3 h4 (by omega) (by omega) (by omega)
  obtain ⟨p5, q5⟩ := mir_bounds (h := 1) (d := -1) u1 u2 (by omega) (by omega) (by omega)
  obtain ⟨p6, q6⟩ := mir_bounds (h := 1) (d := 1) u1 u2 (by omega) (by omega) (by omega)
  unfold specMean
  have a0 := hpos _ _ _ ⟨h1, h2, h3, h4, u1, u2⟩
  have a1 := hpos _ _ _ ⟨p1, q1, h3, h4, u1, u2⟩
  have a2 := hpos _ _ _ ⟨p2, q2, h3, h4, u1, u2⟩
  have a3 := hpos _ _ _ ⟨h1, h2, p3, q3, u1, u2⟩
  have a4 := hpos _ _ _ ⟨h1, h2, p4, q4, u1, u2⟩
  have a5 := hpos _ _ _ ⟨h1, h2, h3, h4, p5, q5⟩
  have a6 := hpos _ _ _ ⟨h1, h2, h3, h4, p6, q6⟩
  have : (0 : K) ≤ 0.1428 := by norm_num
  exact mul_nonneg this (by linarith)

theorem ratio_zero {b : K} (hb : 0 ≤ b) : ratio 0 b = 0 := by
  unfold ratio
  split
  · rfl
  · rw [min_eq_left hb, zero_div]

/-- Where the data are not negative the weight is the smaller of the two ratios. -/
theorem specWeight_nonneg_data (d : DetectArgs) (hd : Fits d) (X : Vol K)
    (hpos : ∀ i j k, InD d i j k → 0 ≤ X i j k) (i j k : Int) (hin : InD d i j k) :
    specWeight d X i j k = min (ratio (specPlate d X i j k) (specRight d X i j k))
      (ratio (specPlate d X i j k) (specLeft d X i j k)) := by
  unfold specWeight
  split
  · rename_i h
    rw [h.1, h.2, ratio_zero le_rfl, ratio_zero (specLeft_nonneg d hd.1 X _ _ _), min_self,
      min_eq_right (specMean_nonneg d hd X hpos i j k hin)]
  · rfl

/-- **C191** Stripe detection is not symmetric: away from the borders the weight that the mirrored
projections get at a column is the weight the original ones get two columns to the left of the
mirrored column — for all executions, all
sizes for which the kernel stays inside its arrays and all data without negative values.
(`_partial`: the claim asks for the mirrored column itself, which `detect_mirrored_fails`
refutes.) -/
theorem detect_mirrored_partial (d : DetectArgs) (hd : Fits d) (X : Vol K)
    (hpos : ∀ i j k, InD d i j k → 0 ≤ X i j k) (m m' p p' : Cell → K)
    (hm : HoldsVol d .input X m) (hp : HoldsVol d .input (mirX d.dX X) p)
    (h : DetectRun d m m') (h' : DetectRun d p p') (i j k : Int) (hin : InD d i j k)
    (hl : d.radius ≤ i) (hr : i + d.radius + 2 < d.dX) :
    p' (.out (d.dX * d.dY * k + j * d.dX + i)) =
      m' (.out (d.dX * d.dY * k + j * d.dX + (d.dX - 1 - i - 2))) := by
  obtain ⟨h1, h2, h3, h4, h5, h6⟩ := id hin
  have f1 := hd.1
  have hin' : InD d (d.dX - 1 - i - 2) j k := ⟨by omega, by omega, h3, h4, h5, h6⟩
  have a := ((detect_result_partial d hd m m' X hm h).2 _ j k hin').2
  have b := ((detect_result_partial d hd p p' _ hp h').2 i j k hin).2
  have hpos' : ∀ i j k, InD d i j k → 0 ≤ mirX d.dX X i j k := fun i j k hin =>
    hpos _ _ _ ⟨by have := hin.2.1; omega, by have := hin.1; omega, hin.2.2⟩
  refine b.unique ?_
  have e : specWindow d (mirX d.dX X) i j k = specWindow d X (d.dX - 1 - i - 2) j k := by
    unfold specWindow
    refine List.map_congr_left fun t ht => ?_
    rw [mem_ints] at ht
    obtain ⟨u1, u2⟩ := mir_bounds (h := d.half) h5 h6 ht.1 ht.2
      (by have := hd.2.2.2.2.2.2; omega)
    rw [specWeight_nonneg_data d hd _ hpos' _ _ _ ⟨h1, h2, h3, h4, u1, u2⟩,
      specWeight_nonneg_data d hd _ hpos _ _ _ ⟨by omega, by omega, h3, h4, u1, u2⟩,
      specPlate_mirX d X i _ _ h1 (by omega), specRight_mirX d X i _ _ h1 hr,
      specLeft_mirX d X i _ _ hl (by omega), min_comm]
  rw [e]
  exact a

/-- Eight columns, two rows and two angles, with one bright column. -/
def brightColumn : Vol ℚ := fun i _ _ => if i = 4 then 1 else if i = 5 then 3 else 0

/-- **C191** (refuted part) So the weights of mirrored projections are not the mirrored weights:
column 4 of these projections has weight 1/3, and in the mirrored projections the same column, now
number 3, has weight 0. -/
theorem detect_mirrored_fails (m m' p p' : Cell → ℚ)
    (hm : HoldsVol ⟨8, 2, 2, 1, 1⟩ .input brightColumn m)
    (hp : HoldsVol ⟨8, 2, 2, 1, 1⟩ .input (mirX 8 brightColumn) p)
    (h : DetectRun ⟨8, 2, 2, 1, 1⟩ m m') (h' : DetectRun ⟨8, 2, 2, 1, 1⟩ p p') :
    m' (.out 4) = 1 / 3 ∧ p' (.out (8 - 1 - 4)) = 0 := by
  have a := ((detect_result_partial _ (by unfold Fits; dsimp only; omega) m m' _ hm h).2 4 0 0
    (by unfold InD; dsimp only; omega)).2
  have b := ((detect_result_partial _ (by unfold Fits; dsimp only; omega) p p' _ hp h').2 3 0 0
    (by unfold InD; dsimp only; omega)).2
  have w : specWindow ⟨8, 2, 2, 1, 1⟩ brightColumn 4 0 0 = [1 / 3, 1 / 3, 1 / 3] := by
    decide +kernel
  have w' : specWindow ⟨8, 2, 2, 1, 1⟩ (mirX 8 brightColumn) 3 0 0 = [0, 0, 0] := by
    decide +kernel
  have e : (Cell.out ((8 : Nat) * (2 : Nat) * 0 + 0 * (8 : Nat) + 4)) = .out 4 := by norm_num
  have e' : (Cell.out ((8 : Nat) * (2 : Nat) * 0 + 0 * (8 : Nat) + 3)) = .out (8 - 1 - 4) := by
    norm_num
  dsimp only at a b
  rw [e, w] at a
  rw [e', w'] at b
  exact ⟨a.unique (by unfold IsRank; decide +kernel), b.unique (by unfold IsRank; decide +kernel)⟩

/-- Both theorems apply to executions that exist; the first at the interior columns 1 to 4. -/
example : ∃ m m' p p' : Cell → ℚ, HoldsVol ⟨8, 2, 2, 1, 1⟩ .input brightColumn m ∧
    HoldsVol ⟨8, 2, 2, 1, 1⟩ .input (mirX 8 brightColumn) p ∧
    DetectRun ⟨8, 2, 2, 1, 1⟩ m m' ∧ DetectRun ⟨8, 2, 2, 1, 1⟩ p p' ∧ Fits ⟨8, 2, 2, 1, 1⟩ ∧
    p' (.out 1) = m' (.out 4) := by
  have holds : ∀ X : Vol ℚ, HoldsVol ⟨8, 2, 2, 1, 1⟩ .input X (fun c => match c with
      | .input a => X (a % 8) (a / 8 % 2) (a / 16)
      | _ => 0) := by
    intro X i j k hin
    unfold InD at hin
    dsimp only at hin ⊢
    obtain ⟨h1, h2, h3, h4, h5, h6⟩ := hin
    congr 1 <;> push_cast <;> omega
  obtain ⟨m', h⟩ := detect_run_exists (K := ℚ) ⟨8, 2, 2, 1, 1⟩ (fun c => match c with
      | .input a => brightColumn (a % 8) (a / 8 % 2) (a / 16)
      | _ => 0)
  obtain ⟨p', h'⟩ := detect_run_exists (K := ℚ) ⟨8, 2, 2, 1, 1⟩ (fun c => match c with
      | .input a => mirX 8 brightColumn (a % 8) (a / 8 % 2) (a / 16)
      | _ => 0)
  have hd : Fits ⟨8, 2, 2, 1, 1⟩ := by unfold Fits; dsimp only; omega
  refine ⟨_, m', _, p', holds _, holds _, h, h', hd, ?_⟩
  have := detect_mirrored_partial _ hd brightColumn (fun i j k _ => by
    unfold brightColumn; split_ifs <;> norm_num) _ m' _ p' (holds _) (holds _) h h' 1 0 0
    (by unfold InD; dsimp only; omega) (by dsimp only; omega) (by dsimp only; omega)
  have e : (Cell.out ((8 : Nat) * (2 : Nat) * 0 + 0 * (8 : Nat) + 1)) = .out 1 := by norm_num
  have e' : (Cell.out ((8 : Nat) * (2 : Nat) * 0 + 0 * (8 : Nat) + ((8 : Nat) - 1 - 1 - 2))) =
    .out 4 := by norm_num
  dsimp only at this
  rwa [e, e'] at this

end Tomopy.Sym
