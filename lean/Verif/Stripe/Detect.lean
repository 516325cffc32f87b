import Verif.Stripe.Loop
import Mathlib.Algebra.Order.Ring.Rat
import Mathlib.Algebra.Order.Field.Rat
import Mathlib.Algebra.Order.BigOperators.Group.List
import Mathlib.Algebra.BigOperators.Ring.List
import Mathlib.Data.Rat.Floor
import Mathlib.Tactic.NormNum

/-! Theorems about `stripes_detect3d` (C43). -/
set_option linter.unusedSectionVars false

namespace Tomopy.Stripe
open Tomopy.Par Tomopy.Num

variable {K : Type} [LinearOrder K] [Field K] [IsStrictOrderedRing K] [FloorRing K]

/-! ### Specification -/

/-- A volume indexed by column, depth row and angle. -/
abbrev Vol (K : Type) := Int → Int → Int → K

/-- The integers `a, …, b`. -/
def ints (a b : Int) : List Int := (List.range (b + 1 - a).toNat).map fun n : Nat => a + n

/-- Coordinate `i + d` if inside `[0, n)`, otherwise its mirror image `i - d`. -/
def mir (n : Nat) (i d : Int) : Int := if 0 ≤ i + d ∧ i + d < n then i + d else i - d

/-- Difference two columns to the right (to the left at the right border). -/
def specGrad (d : DetectArgs) (X : Vol K) : Vol K := fun i j k =>
  X (if i + 2 < d.dX then i + 2 else i - 2) j k - X i j k

/-- Mean absolute difference over the plate along the stripe. -/
def specPlate (d : DetectArgs) (X : Vol K) : Vol K := fun i j k =>
  ((ints (-d.radius) d.radius).map fun a => ((ints (-d.radius) d.radius).map fun b =>
    |specGrad d X i (mir d.dY j a) (mir d.dZ k b)|).sum).sum / (2 * d.radius + 1) ^ 2

/-- Mean absolute difference over the columns to the right. -/
def specRight (d : DetectArgs) (X : Vol K) : Vol K := fun i j k =>
  ((ints (-1) 1).map fun a => ((ints 1 d.radius).map fun b =>
    |specGrad d X (if i + b < d.dX then i + b else i - b) (mir d.dY j a) k|).sum).sum
    / (3 * d.radius)

/-- Mean absolute difference over the columns to the left. -/
def specLeft (d : DetectArgs) (X : Vol K) : Vol K := fun i j k =>
  ((ints (-1) 1).map fun a => ((ints (-d.radius) (-1)).map fun b =>
    |specGrad d X (if 0 ≤ i + b then i + b else i - b) (mir d.dY j a) k|).sum).sum
    / (3 * d.radius)

/-- The smaller of two numbers divided by the larger, 0 if both vanish. -/
def ratio (a b : K) : K := if max a b = 0 then 0 else min a b / max a b

/-- 0.1428 times the sum of the voxel and its six neighbours (mirrored at the border). -/
def specMean (d : DetectArgs) (X : Vol K) : Vol K := fun i j k =>
  0.1428 * (X i j k + X (mir d.dX i (-1)) j k + X (mir d.dX i 1) j k + X i (mir d.dY j (-1)) k
    + X i (mir d.dY j 1) k + X i j (mir d.dZ k (-1)) + X i j (mir d.dZ k 1))

/-- The weight before the vertical filter: the smaller of the two ratios of the mean along the
stripe and across it; where there is no difference at all to the right and along the stripe, the
smoothed projection itself, cut at 0. -/
def specWeight (d : DetectArgs) (X : Vol K) : Vol K := fun i j k =>
  if specPlate d X i j k = 0 ∧ specRight d X i j k = 0 then min (specMean d X i j k) 0
  else min (ratio (specPlate d X i j k) (specRight d X i j k))
    (ratio (specPlate d X i j k) (specLeft d X i j k))

/-- The vertical window of weights. -/
def specWindow (d : DetectArgs) (X : Vol K) (i j k : Int) : List K :=
  (ints (-d.half) d.half).map fun b => specWeight d X i j (mir d.dZ k b)

/-- Sizes for which every read stays in the volume. -/
def Fits (d : DetectArgs) : Prop :=
  1 ≤ d.radius ∧ 2 * d.radius ≤ d.dX ∧ 2 * d.radius ≤ d.dY ∧ 2 * d.radius ≤ d.dZ ∧ 4 ≤ d.dX ∧
  1 ≤ d.half ∧ 2 * d.half ≤ d.dZ

/-- A coordinate triple inside the volume. -/
def InD (d : DetectArgs) (i j k : Int) : Prop :=
  0 ≤ i ∧ i < d.dX ∧ 0 ≤ j ∧ j < d.dY ∧ 0 ≤ k ∧ k < d.dZ

/-- The array `c` of the memory holds the volume. -/
def HoldsVol (d : DetectArgs) (c : Int → Cell) (X : Vol K) (m : Cell → K) : Prop :=
  ∀ i j k, InD d i j k → m (c (d.dX * d.dY * k + j * d.dX + i)) = X i j k

/-- Cell `c a` with `a` in range. -/
def ArrIn (c : Int → Cell) (n : Nat) (l : Cell) : Prop := ∃ a, 0 ≤ a ∧ a < (n : Int) ∧ l = c a

/-! ### Coordinates -/

theorem refl_eq_mir (n : Nat) (i d : Int) : refl n i d = mir n i d := by
  unfold refl mir
  split <;> split <;> omega

theorem mir_bounds {n : Nat} {h i d : Int} (hi : 0 ≤ i) (hi' : i < n) (hd : -h ≤ d)
    (hd' : d ≤ h) (hh : 2 * h ≤ n) : 0 ≤ mir n i d ∧ mir n i d < n := by
  unfold mir
  split <;> omega

theorem reflHi_eq (n : Nat) (i d : Int) : reflHi n i d = if i + d < n then i + d else i - d := by
  unfold reflHi
  split <;> split <;> omega

theorem reflLo_eq (i d : Int) : reflLo i d = if 0 ≤ i + d then i + d else i - d := by
  unfold reflLo
  split <;> split <;> omega

theorem intRange_eq (a b : Int) : intRange a b = ints a b := rfl

theorem hi_bounds {n : Nat} {h i d : Int} (hi : 0 ≤ i) (hi' : i < n) (hd : 0 ≤ d)
    (hd' : d ≤ h) (hh : 2 * h ≤ n) :
    0 ≤ (if i + d < n then i + d else i - d) ∧ (if i + d < n then i + d else i - d) < n := by
  constructor <;> split <;> omega

theorem lo_bounds {n : Nat} {h i d : Int} (hi : 0 ≤ i) (hi' : i < n) (hd : -h ≤ d)
    (hd' : d ≤ 0) (hh : 2 * h ≤ n) :
    0 ≤ (if 0 ≤ i + d then i + d else i - d) ∧ (if 0 ≤ i + d then i + d else i - d) < n := by
  constructor <;> split <;> omega

theorem arr_in {d : DetectArgs} {c : Int → Cell} {i j k : Int} (h : InD d i j k) :
    ArrIn c (d.dX * d.dY * d.dZ) (c (idx d.dX d.dY i j k)) := by
  obtain ⟨h1, h2, h3, h4, h5, h6⟩ := h
  obtain ⟨a, b⟩ := idx_bounds h1 h2 h3 h4 h5 h6
  exact ⟨_, a, b, rfl⟩

theorem inD_of_in {d : DetectArgs} {i j k : Nat} (h : In d.dX d.dY d.dZ (i, j, k)) :
    InD d i j k := by
  unfold In at h
  dsimp only at h
  exact ⟨by omega, by omega, by omega, by omega, by omega, by omega⟩

theorem vox_of_inD {d : DetectArgs} {i j k : Int} (h : InD d i j k) :
    ∃ v : Vox, In d.dX d.dY d.dZ v ∧ (v.1 : Int) = i ∧ (v.2.1 : Int) = j ∧ (v.2.2 : Int) = k := by
  obtain ⟨h1, h2, h3, h4, h5, h6⟩ := h
  exact ⟨(i.toNat, j.toNat, k.toNat), ⟨by dsimp only; omega, by dsimp only; omega,
    by dsimp only; omega⟩, by dsimp only; omega, by dsimp only; omega, by dsimp only; omega⟩

/-! ### Reads -/

theorem meanCells_eq (d : DetectArgs) {i j k : Nat} (hX : 2 ≤ d.dX) (hY : 2 ≤ d.dY) (hZ : 2 ≤ d.dZ)
    (h : InD d i j k) : meanCells d i j k =
      [(mir d.dX i (-1), (j : Int), (k : Int)), (mir d.dX i 1, (j : Int), (k : Int)),
        ((i : Int), mir d.dY j (-1), (k : Int)), ((i : Int), mir d.dY j 1, (k : Int)),
        ((i : Int), (j : Int), mir d.dZ k (-1)), ((i : Int), (j : Int), mir d.dZ k 1)].map
      fun c => .input (idx d.dX d.dY c.1 c.2.1 c.2.2) := by
  obtain ⟨h1, h2, h3, h4, h5, h6⟩ := h
  have e : ∀ (n i : Nat), 2 ≤ n → i < n →
      (if (i : Int) - 1 < 0 then (i : Int) + 1 else i - 1) = mir n i (-1) ∧
      (if (i : Int) + 1 ≥ n then (if (i : Int) - 1 < 0 then (i : Int) + 1 else i - 1) else i + 1)
        = mir n i 1 := by
    intro n i hn hi
    unfold mir
    constructor
    · split <;> split <;> omega
    · (repeat' split) <;> omega
  obtain ⟨a1, a2⟩ := e d.dX i hX (by omega)
  obtain ⟨b1, b2⟩ := e d.dY j hY (by omega)
  obtain ⟨c1, c2⟩ := e d.dZ k hZ (by omega)
  unfold meanCells
  dsimp only
  rw [a2, b2, c2, a1, b1, c1]

theorem mean_own (d : DetectArgs) (hX : 2 ≤ d.dX) (hY : 2 ≤ d.dY) (hZ : 2 ≤ d.dZ) (v : Vox)
    (hv : In d.dX d.dY d.dZ v) :
    OwnCell (ArrIn .input (d.dX * d.dY * d.dZ))
      (fun v : Vox => Cell.work (idx d.dX d.dY v.1 v.2.1 v.2.2)) (meanBody (K := K) d) v := by
  obtain ⟨i, j, k⟩ := v
  have hin := inD_of_in hv
  refine ⟨Or.inl (arr_in hin), fun x => ?_⟩
  rw [meanCells_eq d hX hY hZ hin]
  refine within_readAll _ _ (fun l hl => Or.inl ?_) fun vs _ => ⟨rfl, trivial⟩
  obtain ⟨h1, h2, h3, h4, h5, h6⟩ := hin
  have b : ∀ {n i : Nat} {e : Int}, 2 ≤ n → (0 : Int) ≤ i → (i : Int) < n → -1 ≤ e → e ≤ 1 →
      0 ≤ mir n i e ∧ mir n i e < n := fun hn h h' he he' =>
    mir_bounds (h := 1) h h' he he' (by omega)
  obtain ⟨c, hc, rfl⟩ := List.mem_map.1 hl
  simp only [List.mem_cons, List.not_mem_nil, or_false] at hc
  rcases hc with rfl | rfl | rfl | rfl | rfl | rfl
  · exact arr_in ⟨(b hX h1 h2 (by omega) (by omega)).1, (b hX h1 h2 (by omega) (by omega)).2,
      h3, h4, h5, h6⟩
  · exact arr_in ⟨(b hX h1 h2 (by omega) (by omega)).1, (b hX h1 h2 (by omega) (by omega)).2,
      h3, h4, h5, h6⟩
  · exact arr_in ⟨h1, h2, (b hY h3 h4 (by omega) (by omega)).1,
      (b hY h3 h4 (by omega) (by omega)).2, h5, h6⟩
  · exact arr_in ⟨h1, h2, (b hY h3 h4 (by omega) (by omega)).1,
      (b hY h3 h4 (by omega) (by omega)).2, h5, h6⟩
  · exact arr_in ⟨h1, h2, h3, h4, (b hZ h5 h6 (by omega) (by omega)).1,
      (b hZ h5 h6 (by omega) (by omega)).2⟩
  · exact arr_in ⟨h1, h2, h3, h4, (b hZ h5 h6 (by omega) (by omega)).1,
      (b hZ h5 h6 (by omega) (by omega)).2⟩

theorem grad_own (d : DetectArgs) (hX : 4 ≤ d.dX) (v : Vox) (hv : In d.dX d.dY d.dZ v) :
    OwnCell (ArrIn .input (d.dX * d.dY * d.dZ))
      (fun v : Vox => Cell.out (idx d.dX d.dY v.1 v.2.1 v.2.2)) (gradBody (K := K) d) v := by
  obtain ⟨i, j, k⟩ := v
  have hin := inD_of_in hv
  obtain ⟨h1, h2, h3, h4, h5, h6⟩ := id hin
  refine ⟨Or.inl ?_, fun x => ⟨Or.inl (arr_in hin), fun y => ⟨rfl, trivial⟩⟩⟩
  rw [reflHi_eq]
  obtain ⟨a, b⟩ := hi_bounds (h := 2) (d := 2) h1 h2 (by omega) (by omega) (by omega)
  exact arr_in ⟨a, b, h3, h4, h5, h6⟩

theorem plateCells_in (d : DetectArgs) (hd : Fits d) {i j k : Nat} (hin : InD d i j k) :
    ∀ l ∈ plateCells d i j k, ArrIn .out (d.dX * d.dY * d.dZ) l := by
  intro l hl
  obtain ⟨f1, f2, f3, f4, f5, f6, f7⟩ := hd
  obtain ⟨h1, h2, h3, h4, h5, h6⟩ := hin
  unfold plateCells at hl
  simp only [List.mem_flatMap, List.mem_map, mem_intRange] at hl
  obtain ⟨a, ha, b, hb, rfl⟩ := hl
  rw [refl_eq_mir, refl_eq_mir]
  obtain ⟨u1, u2⟩ := mir_bounds h3 h4 ha.1 ha.2 f3
  obtain ⟨v1, v2⟩ := mir_bounds h5 h6 hb.1 hb.2 f4
  exact arr_in ⟨h1, h2, u1, u2, v1, v2⟩

theorem horizCells_in (d : DetectArgs) (hd : Fits d) {i j k : Nat} (hin : InD d i j k) :
    ∀ l ∈ horizCells d i j k, ArrIn .out (d.dX * d.dY * d.dZ) l := by
  intro l hl
  obtain ⟨f1, f2, f3, f4, f5, f6, f7⟩ := hd
  obtain ⟨h1, h2, h3, h4, h5, h6⟩ := hin
  unfold horizCells at hl
  simp only [List.mem_flatMap, List.mem_map, mem_intRange] at hl
  obtain ⟨a, ha, b, hb, rfl⟩ := hl
  rw [refl_eq_mir, reflHi_eq]
  obtain ⟨u1, u2⟩ := mir_bounds (h := 1) h3 h4 ha.1 ha.2 (by omega)
  obtain ⟨v1, v2⟩ := hi_bounds h1 h2 (by omega) hb.2 f2
  exact arr_in ⟨v1, v2, u1, u2, h5, h6⟩

theorem horizCells2_in (d : DetectArgs) (hd : Fits d) {i j k : Nat} (hin : InD d i j k) :
    ∀ l ∈ horizCells2 d i j k, ArrIn .out (d.dX * d.dY * d.dZ) l := by
  intro l hl
  obtain ⟨f1, f2, f3, f4, f5, f6, f7⟩ := hd
  obtain ⟨h1, h2, h3, h4, h5, h6⟩ := hin
  unfold horizCells2 at hl
  simp only [List.mem_flatMap, List.mem_map, mem_intRange] at hl
  obtain ⟨a, ha, b, hb, rfl⟩ := hl
  rw [refl_eq_mir, reflLo_eq]
  obtain ⟨u1, u2⟩ := mir_bounds (h := 1) h3 h4 ha.1 ha.2 (by omega)
  obtain ⟨v1, v2⟩ := lo_bounds h1 h2 hb.1 (by omega) f2
  exact arr_in ⟨v1, v2, u1, u2, h5, h6⟩

theorem ratio_own (d : DetectArgs) (hd : Fits d) (v : Vox) (hv : In d.dX d.dY d.dZ v) :
    OwnCell (ArrIn .out (d.dX * d.dY * d.dZ))
      (fun v : Vox => Cell.work (idx d.dX d.dY v.1 v.2.1 v.2.2)) (ratioBody (K := K) d) v := by
  obtain ⟨i, j, k⟩ := v
  have hin := inD_of_in hv
  refine within_readAll _ _ (fun l hl => Or.inl (plateCells_in d hd hin l hl)) fun ps _ => ?_
  refine within_readAll _ _ (fun l hl => Or.inl (horizCells_in d hd hin l hl)) fun hs _ => ?_
  refine within_readAll _ _ (fun l hl => Or.inl (horizCells2_in d hd hin l hl)) fun h2s _ => ?_
  exact ⟨Or.inr rfl, fun o => ⟨rfl, trivial⟩⟩

theorem med_own (d : DetectArgs) (hd : Fits d) (v : Vox) (hv : In d.dX d.dY d.dZ v) :
    OwnCell (ArrIn .work (d.dX * d.dY * d.dZ))
      (fun v : Vox => Cell.out (idx d.dX d.dY v.1 v.2.1 v.2.2)) (medBody (K := K) d) v := by
  obtain ⟨i, j, k⟩ := v
  have hin := inD_of_in hv
  refine within_readAll _ _ (fun l hl => Or.inl ?_) fun ps _ => ⟨rfl, trivial⟩
  obtain ⟨f1, f2, f3, f4, f5, f6, f7⟩ := hd
  obtain ⟨h1, h2, h3, h4, h5, h6⟩ := hin
  unfold medCells at hl
  simp only [List.mem_map, mem_intRange] at hl
  obtain ⟨a, ha, rfl⟩ := hl
  rw [refl_eq_mir]
  obtain ⟨u1, u2⟩ := mir_bounds h5 h6 ha.1 ha.2 (by omega)
  exact arr_in ⟨h1, h2, h3, h4, u1, u2⟩

/-! ### Values -/

theorem dout_inj : Function.Injective Cell.out := fun a b h => by injection h
theorem dwork_inj : Function.Injective Cell.work := fun a b h => by injection h

theorem sum_flatMap {α β : Type} (l : List α) (l' : List β) (f : α → β → K) :
    (l.flatMap fun a => l'.map fun b => f a b).sum = (l.map fun a => (l'.map fun b => f a b).sum).sum := by
  induction l with
  | nil => rfl
  | cons a l ih => simp [List.flatMap_cons, List.sum_append, ih]

theorem meanAbs_nonneg (vs : List K) {n : Int} (hn : 0 ≤ n) : 0 ≤ meanAbs vs n := by
  unfold meanAbs
  refine div_nonneg (List.sum_nonneg ?_) (by exact_mod_cast hn)
  intro x hx
  obtain ⟨v, _, rfl⟩ := List.mem_map.1 hx
  exact abs_nonneg v

theorem ratio_nonneg {a b : K} (ha : 0 ≤ a) (hb : 0 ≤ b) : 0 ≤ ratio a b := by
  unfold ratio
  split
  · exact le_refl 0
  · exact div_nonneg (le_min ha hb) (le_trans ha (le_max_left a b))

theorem ratio_le_one {a b : K} (ha : 0 ≤ a) (_hb : 0 ≤ b) : ratio a b ≤ 1 := by
  unfold ratio
  split
  · exact zero_le_one
  · rename_i h
    have : 0 < max a b := lt_of_le_of_ne (le_trans ha (le_max_left a b)) (Ne.symm h)
    rw [div_le_one this]
    exact le_trans (min_le_left a b) (le_max_left a b)

theorem ratio_tests {a b x : K} (ha : 0 ≤ a) (hb : 0 ≤ b) :
    (if b < a ∧ a ≠ 0 then b / a else if b ≥ a ∧ b ≠ 0 then a / b else x)
      = if a = 0 ∧ b = 0 then x else ratio a b := by
  by_cases hab : b < a
  · have h0 : a ≠ 0 := ne_of_gt (lt_of_le_of_lt hb hab)
    rw [if_pos ⟨hab, h0⟩, if_neg (fun h => h0 h.1)]
    unfold ratio
    rw [max_eq_left hab.le, min_eq_right hab.le, if_neg h0]
  · have hab' : a ≤ b := not_lt.1 hab
    rw [if_neg (fun h => hab h.1)]
    by_cases h0 : b = 0
    · have : a = 0 := le_antisymm (h0 ▸ hab') ha
      rw [if_neg (fun h => h.2 h0), if_pos ⟨this, h0⟩]
    · rw [if_pos ⟨hab', h0⟩, if_neg (fun h => h0 h.2)]
      unfold ratio
      rw [max_eq_right hab', min_eq_left hab', if_neg h0]

theorem ratioValue_eq {o P R L : K} (hP : 0 ≤ P) (hR : 0 ≤ R) (hL : 0 ≤ L) :
    ratioValue o P R L = if P = 0 ∧ R = 0 then min o 0 else min (ratio P R) (ratio P L) := by
  have e : ratioValue o P R L
      = min (if R < P ∧ P ≠ 0 then R / P else if R ≥ P ∧ R ≠ 0 then P / R else o)
        (if L < P ∧ P ≠ 0 then L / P else if L ≥ P ∧ L ≠ 0 then P / L else 0) := by
    unfold ratioValue
    dsimp only
    generalize (if R < P ∧ P ≠ 0 then R / P else if R ≥ P ∧ R ≠ 0 then P / R else o) = u
    generalize (if L < P ∧ P ≠ 0 then L / P else if L ≥ P ∧ L ≠ 0 then P / L else 0) = w
    split
    · rename_i h; exact (min_eq_right h.le).symm
    · rename_i h; exact (min_eq_left (not_lt.1 h)).symm
  rw [e, ratio_tests hP hR, ratio_tests hP hL]
  by_cases h : P = 0 ∧ R = 0
  · rw [if_pos h, if_pos h]
    congr 1
    by_cases h' : L = 0
    · rw [if_pos ⟨h.1, h'⟩]
    · rw [if_neg (fun c => h' c.2)]
      unfold ratio
      rw [h.1, max_eq_right hL, min_eq_left hL, if_neg h', zero_div]
  · rw [if_neg h, if_neg h]
    congr 1
    by_cases h' : P = 0 ∧ L = 0
    · rw [if_pos h']
      unfold ratio
      rw [h'.1, h'.2, max_self, if_pos rfl]
    · rw [if_neg h']

theorem sumAbs_cells {d : DetectArgs} {m : Cell → K} {G : Vol K} (hG : HoldsVol d .out G m)
    (la lb : List Int) (f : Int → Int → Int × Int × Int)
    (hf : ∀ a ∈ la, ∀ b ∈ lb, InD d (f a b).1 (f a b).2.1 (f a b).2.2) :
    ((((la.flatMap fun a => lb.map fun b =>
        Cell.out (idx d.dX d.dY (f a b).1 (f a b).2.1 (f a b).2.2)).map m).map fun v => |v|).sum)
      = (la.map fun a => (lb.map fun b => |G (f a b).1 (f a b).2.1 (f a b).2.2|).sum).sum := by
  rw [← sum_flatMap]
  simp only [List.map_flatMap, List.map_map]
  congr 1
  refine List.flatMap_congr fun a ha => List.map_congr_left fun b hb => ?_
  simp only [Function.comp]
  congr 1
  exact hG _ _ _ (hf a ha b hb)

theorem meanAbs_cells (vs : List K) (n : Int) (x : K) (q : K) (h : (vs.map fun v => |v|).sum = x)
    (hn : (n : K) = q) : meanAbs vs n = x / q := by
  unfold meanAbs; rw [h, hn]

theorem plate_value (d : DetectArgs) (hd : Fits d) {m : Cell → K} {X : Vol K}
    (hG : HoldsVol d .out (specGrad d X) m) {i j k : Nat} (hin : InD d i j k) :
    meanAbs ((plateCells d i j k).map m) ((2 * d.radius + 1) * (2 * d.radius + 1))
      = specPlate d X i j k := by
  obtain ⟨f1, f2, f3, f4, f5, f6, f7⟩ := hd
  obtain ⟨h1, h2, h3, h4, h5, h6⟩ := hin
  refine meanAbs_cells _ _ _ _ ?_ (by push_cast; ring)
  unfold plateCells
  simp only [refl_eq_mir, intRange_eq]
  refine sumAbs_cells hG _ _ (fun a b => ((i : Int), mir d.dY j a, mir d.dZ k b)) ?_
  intro a ha b hb
  rw [← intRange_eq, mem_intRange] at ha hb
  obtain ⟨u1, u2⟩ := mir_bounds h3 h4 ha.1 ha.2 f3
  obtain ⟨v1, v2⟩ := mir_bounds h5 h6 hb.1 hb.2 f4
  exact ⟨h1, h2, u1, u2, v1, v2⟩

theorem right_value (d : DetectArgs) (hd : Fits d) {m : Cell → K} {X : Vol K}
    (hG : HoldsVol d .out (specGrad d X) m) {i j k : Nat} (hin : InD d i j k) :
    meanAbs ((horizCells d i j k).map m) (d.radius * 3) = specRight d X i j k := by
  obtain ⟨f1, f2, f3, f4, f5, f6, f7⟩ := hd
  obtain ⟨h1, h2, h3, h4, h5, h6⟩ := hin
  refine meanAbs_cells _ _ _ _ ?_ (by push_cast; ring)
  unfold horizCells
  simp only [refl_eq_mir, intRange_eq, reflHi_eq]
  refine sumAbs_cells hG _ _ (fun a b =>
    ((if (i : Int) + b < d.dX then (i : Int) + b else i - b), mir d.dY j a, (k : Int))) ?_
  intro a ha b hb
  rw [← intRange_eq, mem_intRange] at ha hb
  obtain ⟨u1, u2⟩ := mir_bounds (h := 1) h3 h4 ha.1 ha.2 (by omega)
  obtain ⟨v1, v2⟩ := hi_bounds h1 h2 (by omega) hb.2 f2
  exact ⟨v1, v2, u1, u2, h5, h6⟩

theorem left_value (d : DetectArgs) (hd : Fits d) {m : Cell → K} {X : Vol K}
    (hG : HoldsVol d .out (specGrad d X) m) {i j k : Nat} (hin : InD d i j k) :
    meanAbs ((horizCells2 d i j k).map m) (d.radius * 3) = specLeft d X i j k := by
  obtain ⟨f1, f2, f3, f4, f5, f6, f7⟩ := hd
  obtain ⟨h1, h2, h3, h4, h5, h6⟩ := hin
  refine meanAbs_cells _ _ _ _ ?_ (by push_cast; ring)
  unfold horizCells2
  simp only [refl_eq_mir, intRange_eq, reflLo_eq]
  refine sumAbs_cells hG _ _ (fun a b =>
    ((if 0 ≤ (i : Int) + b then (i : Int) + b else i - b), mir d.dY j a, (k : Int))) ?_
  intro a ha b hb
  rw [← intRange_eq, mem_intRange] at ha hb
  obtain ⟨u1, u2⟩ := mir_bounds (h := 1) h3 h4 ha.1 ha.2 (by omega)
  obtain ⟨v1, v2⟩ := lo_bounds h1 h2 hb.1 (by omega) f2
  exact ⟨v1, v2, u1, u2, h5, h6⟩

/-- Everything a run of the kernel leaves in memory. -/
theorem detect_run (d : DetectArgs) (hd : Fits d) {m m' : Cell → K} {X : Vol K}
    (hX : HoldsVol d .input X m) (h : DetectRun d m m') :
    (∀ a, m' (.input a) = m (.input a)) ∧
    ∀ i j k, InD d i j k → m' (.out (idx d.dX d.dY i j k))
      = (sortL (specWindow d X i j k)).getD (midIndex d) 0 := by
  obtain ⟨f1, f2, f3, f4, f5, f6, f7⟩ := id hd
  obtain ⟨m1, m2, m3, l1, l2, l3, l4⟩ := h
  obtain ⟨a1, b1⟩ := loop_final dwork_inj (by rintro a ⟨b, _, _, e⟩; cases e)
    (mean_own d (by omega) (by omega) (by omega)) l1
  obtain ⟨a2, b2⟩ := loopJ_final dout_inj (by rintro a ⟨b, _, _, e⟩; cases e)
    (grad_own d f5) l2
  obtain ⟨a3, b3⟩ := loop_final dwork_inj (by rintro a ⟨b, _, _, e⟩; cases e)
    (ratio_own d hd) l3
  obtain ⟨a4, b4⟩ := loop_final dout_inj (by rintro a ⟨b, _, _, e⟩; cases e)
    (med_own d hd) l4
  have hX1 : HoldsVol d .input X m1 := fun i j k hin => by
    rw [b1 _ fun v _ e => by cases e]; exact hX i j k hin
  -- smoothed values survive the gradient loop
  have hM : HoldsVol d .work (specMean d X) m2 := fun i j k hin => by
    rw [b2 _ fun v _ e => by cases e]
    obtain ⟨v, hv, rfl, rfl, rfl⟩ := vox_of_inD hin
    refine (a1 v hv).trans ?_
    obtain ⟨i, j, k⟩ := v
    dsimp only at hin ⊢
    rw [meanBody, Prog.run, run_readAll, meanCells_eq d (by omega) (by omega) (by omega) hin]
    obtain ⟨h1, h2, h3, h4, h5, h6⟩ := id hin
    obtain ⟨p1, q1⟩ := mir_bounds (h := 1) (d := -1) h1 h2 (by omega) (by omega) (by omega)
    obtain ⟨p2, q2⟩ := mir_bounds (h := 1) (d := 1) h1 h2 (by omega) (by omega) (by omega)
    obtain ⟨p3, q3⟩ := mir_bounds (h := 1) (d := -1) h3 h4 (by omega) (by omega) (by omega)
    obtain ⟨p4, q4⟩ := mir_bounds (h := 1) (d := 1) h3 h4 (by omega) (by omega) (by omega)
    obtain ⟨p5, q5⟩ := mir_bounds (h := 1) (d := -1) h5 h6 (by omega) (by omega) (by omega)
    obtain ⟨p6, q6⟩ := mir_bounds (h := 1) (d := 1) h5 h6 (by omega) (by omega) (by omega)
    have r : ∀ i j k, InD d i j k → m (.input (idx d.dX d.dY i j k)) = X i j k := hX
    simp only [Prog.run, upd, if_true, List.map_cons, List.map_nil, List.sum_cons, List.sum_nil,
      add_zero]
    rw [r _ _ _ hin, r _ _ _ ⟨p1, q1, h3, h4, h5, h6⟩, r _ _ _ ⟨p2, q2, h3, h4, h5, h6⟩,
      r _ _ _ ⟨h1, h2, p3, q3, h5, h6⟩, r _ _ _ ⟨h1, h2, p4, q4, h5, h6⟩,
      r _ _ _ ⟨h1, h2, h3, h4, p5, q5⟩, r _ _ _ ⟨h1, h2, h3, h4, p6, q6⟩]
    unfold specMean
    ring
  have hG : HoldsVol d .out (specGrad d X) m2 := fun i j k hin => by
    obtain ⟨v, hv, rfl, rfl, rfl⟩ := vox_of_inD hin
    refine (a2 v hv).trans ?_
    obtain ⟨i, j, k⟩ := v
    dsimp only at hin ⊢
    obtain ⟨h1, h2, h3, h4, h5, h6⟩ := id hin
    obtain ⟨p1, q1⟩ := hi_bounds (h := 2) (d := 2) h1 h2 (by omega) (by omega) (by omega)
    have r : ∀ i j k, InD d i j k → m1 (.input (idx d.dX d.dY i j k)) = X i j k := hX1
    simp only [gradBody, Prog.run, upd, if_true, reflHi_eq]
    rw [r _ _ _ hin, r _ _ _ ⟨p1, q1, h3, h4, h5, h6⟩]
    rfl
  have hW : HoldsVol d .work (specWeight d X) m3 := fun i j k hin => by
    obtain ⟨v, hv, rfl, rfl, rfl⟩ := vox_of_inD hin
    refine (a3 v hv).trans ?_
    obtain ⟨i, j, k⟩ := v
    dsimp only at hin ⊢
    simp only [ratioBody, run_readAll, Prog.run, upd, if_true]
    have em : m2 (.work (idx d.dX d.dY i j k)) = specMean d X i j k := hM _ _ _ hin
    have nP : 0 ≤ meanAbs ((plateCells d i j k).map m2) ((2 * d.radius + 1) * (2 * d.radius + 1)) :=
      meanAbs_nonneg _ (mul_nonneg (by omega) (by omega))
    have nR : 0 ≤ meanAbs ((horizCells d i j k).map m2) (d.radius * 3) :=
      meanAbs_nonneg _ (by omega)
    have nL : 0 ≤ meanAbs ((horizCells2 d i j k).map m2) (d.radius * 3) :=
      meanAbs_nonneg _ (by omega)
    rw [ratioValue_eq nP nR nL, em, plate_value d hd hG hin, right_value d hd hG hin,
      left_value d hd hG hin]
    rfl
  refine ⟨fun a => ?_, fun i j k hin => ?_⟩
  · rw [b4 _ (fun v _ e => by cases e), b3 _ (fun v _ e => by cases e),
      b2 _ (fun v _ e => by cases e), b1 _ (fun v _ e => by cases e)]
  · obtain ⟨v, hv, rfl, rfl, rfl⟩ := vox_of_inD hin
    refine (a4 v hv).trans ?_
    obtain ⟨i, j, k⟩ := v
    dsimp only at hin ⊢
    obtain ⟨h1, h2, h3, h4, h5, h6⟩ := id hin
    simp only [medBody, run_readAll, Prog.run, upd, if_true]
    congr 2
    unfold medCells specWindow
    rw [List.map_map, intRange_eq]
    refine List.map_congr_left fun b hb => ?_
    rw [← intRange_eq, mem_intRange] at hb
    simp only [Function.comp, refl_eq_mir]
    obtain ⟨u1, u2⟩ := mir_bounds (h := d.half) h5 h6 hb.1 hb.2 (by omega)
    exact hW _ _ _ ⟨h1, h2, h3, h4, u1, u2⟩

theorem length_specWindow (d : DetectArgs) (X : Vol K) (i j k : Int) :
    (specWindow d X i j k).length = 2 * d.half + 1 := by
  unfold specWindow ints
  rw [List.length_map, List.length_map, List.length_range]
  omega

theorem specPlate_nonneg (d : DetectArgs) (X : Vol K) (i j k : Int) : 0 ≤ specPlate d X i j k := by
  unfold specPlate
  refine div_nonneg (List.sum_nonneg ?_) (by positivity)
  intro x hx
  obtain ⟨a, _, rfl⟩ := List.mem_map.1 hx
  refine List.sum_nonneg ?_
  intro x hx
  obtain ⟨a, _, rfl⟩ := List.mem_map.1 hx
  exact abs_nonneg _

theorem specRight_nonneg (d : DetectArgs) (hr : 1 ≤ d.radius) (X : Vol K) (i j k : Int) :
    0 ≤ specRight d X i j k := by
  unfold specRight
  have : (0 : K) ≤ d.radius := by exact_mod_cast (by omega : (0 : Int) ≤ d.radius)
  refine div_nonneg (List.sum_nonneg ?_) (by positivity)
  intro x hx
  obtain ⟨a, _, rfl⟩ := List.mem_map.1 hx
  refine List.sum_nonneg ?_
  intro x hx
  obtain ⟨a, _, rfl⟩ := List.mem_map.1 hx
  exact abs_nonneg _

theorem specLeft_nonneg (d : DetectArgs) (hr : 1 ≤ d.radius) (X : Vol K) (i j k : Int) :
    0 ≤ specLeft d X i j k := by
  unfold specLeft
  have : (0 : K) ≤ d.radius := by exact_mod_cast (by omega : (0 : Int) ≤ d.radius)
  refine div_nonneg (List.sum_nonneg ?_) (by positivity)
  intro x hx
  obtain ⟨a, _, rfl⟩ := List.mem_map.1 hx
  refine List.sum_nonneg ?_
  intro x hx
  obtain ⟨a, _, rfl⟩ := List.mem_map.1 hx
  exact abs_nonneg _

theorem specWeight_le_one (d : DetectArgs) (hr : 1 ≤ d.radius) (X : Vol K) (i j k : Int) :
    specWeight d X i j k ≤ 1 := by
  unfold specWeight
  split
  · exact le_trans (min_le_right _ _) zero_le_one
  · exact le_trans (min_le_left _ _)
      (ratio_le_one (specPlate_nonneg d X i j k) (specRight_nonneg d hr X i j k))

/-! ### C43 -/

/-- **C43** `stripes_detect3d` accepts a volume and filter size exactly when the documentation
says so; the radius is not looked at. -/
theorem detect_args_checked (shape : List Nat) (size radius : Int) :
    (∃ d, detectArgs shape size radius = .ok d) ↔
      ∃ dz dy dx, shape = [dz, dy, dx] ∧ 0 < dz ∧ 0 < dy ∧ 0 < dx ∧ 0 < size ∧
        size ≤ (dz / 2 : Nat) := by
  constructor
  · rintro ⟨p, h⟩
    unfold detectArgs at h
    split at h
    · rename_i dz dy dx
      split at h; · cases h
      split at h; · cases h
      exact ⟨dz, dy, dx, rfl, by omega, by omega, by omega, by omega, by omega⟩
    · cases h
  · rintro ⟨dz, dy, dx, rfl, h1, h2, h3, h4, h5⟩
    refine ⟨⟨dx, dy, dz, size.toNat, radius⟩, ?_⟩
    unfold detectArgs
    dsimp only
    rw [if_neg (by omega), if_neg (by omega)]

/-- **C43** All accesses are inside the arrays, whatever is read, when the radius is at least 1 and
not more than half of each dimension and there are at least four columns.  (`_partial`: the code
checks none of this; see `detect_out_of_bounds`.) -/
theorem detect_in_bounds_partial (d : DetectArgs) (hd : Fits d) (i j k : Nat) (hi : i < d.dX)
    (hj : j < d.dY) (hk : k < d.dZ) :
    ∀ body ∈ [meanBody (K := K) d, gradBody d, ratioBody d, medBody d],
      (body (i, j, k)).Within
        (fun l => ∃ a : Int, 0 ≤ a ∧ a < (d.dX * d.dY * d.dZ : Nat) ∧
          (l = .input a ∨ l = .work a ∨ l = .out a))
        (fun l => ∃ a : Int, 0 ≤ a ∧ a < (d.dX * d.dY * d.dZ : Nat) ∧
          (l = .work a ∨ l = .out a)) := by
  have hv : In d.dX d.dY d.dZ (i, j, k) := ⟨hi, hj, hk⟩
  obtain ⟨h1, h2, h3, h4, h5, h6⟩ := inD_of_in hv
  obtain ⟨b1, b2⟩ := idx_bounds h1 h2 h3 h4 h5 h6
  obtain ⟨f1, f2, f3, f4, f5, f6, f7⟩ := id hd
  intro body hbody
  simp only [List.mem_cons, List.not_mem_nil, or_false] at hbody
  rcases hbody with rfl | rfl | rfl | rfl
  · refine within_weaken (mean_own d (by omega) (by omega) (by omega) _ hv) ?_ ?_
    · rintro l (⟨a, h, h', rfl⟩ | rfl)
      · exact ⟨a, h, h', Or.inl rfl⟩
      · exact ⟨_, b1, b2, Or.inr (Or.inl rfl)⟩
    · rintro l rfl; exact ⟨_, b1, b2, Or.inl rfl⟩
  · refine within_weaken (grad_own d f5 _ hv) ?_ ?_
    · rintro l (⟨a, h, h', rfl⟩ | rfl)
      · exact ⟨a, h, h', Or.inl rfl⟩
      · exact ⟨_, b1, b2, Or.inr (Or.inr rfl)⟩
    · rintro l rfl; exact ⟨_, b1, b2, Or.inr rfl⟩
  · refine within_weaken (ratio_own d hd _ hv) ?_ ?_
    · rintro l (⟨a, h, h', rfl⟩ | rfl)
      · exact ⟨a, h, h', Or.inr (Or.inr rfl)⟩
      · exact ⟨_, b1, b2, Or.inr (Or.inl rfl)⟩
    · rintro l rfl; exact ⟨_, b1, b2, Or.inl rfl⟩
  · refine within_weaken (med_own d hd _ hv) ?_ ?_
    · rintro l (⟨a, h, h', rfl⟩ | rfl)
      · exact ⟨a, h, h', Or.inr (Or.inl rfl)⟩
      · exact ⟨_, b1, b2, Or.inr (Or.inr rfl)⟩
    · rintro l rfl; exact ⟨_, b1, b2, Or.inr rfl⟩

/-- **C43** For every execution the input is unchanged and every output voxel is the element of
rank `size - 1` (counted from 0) of the `2 size + 1` weights in its vertical window.  (`_partial`:
the claim asks for the median, which has rank `size`; and the sizes must fit.) -/
theorem detect_result_partial (d : DetectArgs) (hd : Fits d) (m m' : Cell → K) (X : Vol K)
    (hX : HoldsVol d .input X m) (h : DetectRun d m m') :
    (∀ a, m' (.input a) = m (.input a)) ∧
    ∀ i j k, InD d i j k →
      (specWindow d X i j k).length = 2 * d.half + 1 ∧
      IsRank (specWindow d X i j k) (d.half - 1)
        (m' (.out (d.dX * d.dY * k + j * d.dX + i))) := by
  obtain ⟨a, b⟩ := detect_run d hd hX h
  refine ⟨a, fun i j k hin => ⟨length_specWindow d X i j k, ?_⟩⟩
  have e : midIndex d = d.half - 1 := by unfold midIndex; omega
  have hl := length_specWindow d X i j k
  have hb : m' (.out (d.dX * d.dY * k + j * d.dX + i)) = _ := b i j k hin
  rw [hb, e, getD_sortL _ (by omega)]
  exact sortL_isRank _ _ _

/-- **C43** The weights never exceed 1, and they are at least 0 if the projections are.
(`_partial`: for projections with negative values the lower bound fails, see `detect_negative`.) -/
theorem detect_range_partial (d : DetectArgs) (hd : Fits d) (m m' : Cell → K) (X : Vol K)
    (hX : HoldsVol d .input X m) (h : DetectRun d m m') (i j k : Int) (hin : InD d i j k) :
    m' (.out (d.dX * d.dY * k + j * d.dX + i)) ≤ 1 ∧
    ((∀ i j k, InD d i j k → 0 ≤ X i j k) →
      0 ≤ m' (.out (d.dX * d.dY * k + j * d.dX + i))) := by
  have hr := ((detect_result_partial d hd m m' X hX h).2 i j k hin).2
  have hmem := hr.mem
  unfold specWindow at hmem
  obtain ⟨b, hb, hbe⟩ := List.mem_map.1 hmem
  rw [← hbe]
  obtain ⟨f1, f2, f3, f4, f5, f6, f7⟩ := id hd
  refine ⟨specWeight_le_one d f1 X _ _ _, fun hpos => ?_⟩
  obtain ⟨h1, h2, h3, h4, h5, h6⟩ := hin
  rw [← intRange_eq, mem_intRange] at hb
  obtain ⟨u1, u2⟩ := mir_bounds (h := d.half) h5 h6 hb.1 hb.2 (by omega)
  generalize mir d.dZ k b = k' at u1 u2
  unfold specWeight
  split
  · refine le_min ?_ (le_refl 0)
    obtain ⟨p1, q1⟩ := mir_bounds (h := 1) (d := -1) h1 h2 (by omega) (by omega) (by omega)
    obtain ⟨p2, q2⟩ := mir_bounds (h := 1) (d := 1) h1 h2 (by omega) (by omega) (by omega)
    obtain ⟨p3, q3⟩ := mir_bounds (h := 1) (d := -1) h3 h4 (by omega) (by omega) (by omega)
    obtain ⟨p4, q4⟩ := mir_bounds (h := 1) (d := 1) h3 h4 (by omega) (by omega) (by omega)
    obtain ⟨p5, q5⟩ := mir_bounds (h := 1) (d := -1) u1 u2 (by omega) (by omega) (by omega)
    obtain ⟨p6, q6⟩ := mir_bounds (h := 1) (d := 1) u1 u2 (by omega) (by omega) (by omega)
    unfold specMean
    have a0 := hpos _ _ _ ⟨h1, h2, h3, h4, u1, u2⟩
    have a1 := hpos _ _ _ ⟨p1, q1, h3, h4, u1, u2⟩
    have a2 := hpos _ _ _ ⟨p2, q2, h3, h4, u1, u2⟩
    have a3 := hpos _ _ _ ⟨h1, h2, p3, q3, u1, u2⟩
    have a4 := hpos _ _ _ ⟨h1, h2, p4, q4, u1, u2⟩
    have a5 := hpos _ _ _ ⟨h1, h2, h3, h4, p5, q5⟩
    have a6 := hpos _ _ _ ⟨h1, h2, h3, h4, p6, q6⟩
    have : (0 : K) ≤ 0.1428 := by norm_num
    exact mul_nonneg this (by linarith)
  · exact le_min (ratio_nonneg (specPlate_nonneg d X _ _ _) (specRight_nonneg d f1 X _ _ _))
      (ratio_nonneg (specPlate_nonneg d X _ _ _) (specLeft_nonneg d f1 X _ _ _))

/-- **C43** Two executions give the same weights. -/
theorem detect_schedule_independent_partial (d : DetectArgs) (hd : Fits d) (m m1 m2 : Cell → K)
    (h1 : DetectRun d m m1) (h2 : DetectRun d m m2) (i j k : Int) (hin : InD d i j k) :
    m1 (.out (d.dX * d.dY * k + j * d.dX + i)) = m2 (.out (d.dX * d.dY * k + j * d.dX + i)) := by
  have hX : HoldsVol d .input (fun i j k => m (.input (d.dX * d.dY * k + j * d.dX + i))) m :=
    fun _ _ _ _ => rfl
  exact ((detect_result_partial d hd m m1 _ hX h1).2 i j k hin).2.unique
    ((detect_result_partial d hd m m2 _ hX h2).2 i j k hin).2

/-- **C43** Executions exist. -/
theorem detect_run_exists (d : DetectArgs) (m : Cell → K) : ∃ m', DetectRun d m m' := by
  obtain ⟨m1, h1⟩ := loop_exists d.dX d.dY d.dZ (meanBody d) m
  obtain ⟨m2, h2⟩ := loopJ_exists d.dX d.dY d.dZ (gradBody d) m1
  obtain ⟨m3, h3⟩ := loop_exists d.dX d.dY d.dZ (ratioBody d) m2
  obtain ⟨m4, h4⟩ := loop_exists d.dX d.dY d.dZ (medBody d) m3
  exact ⟨m4, m1, m2, m3, h1, h2, h3, h4⟩

theorem list_sum_map_zero {α : Type} (l : List α) (f : α → K) (h : ∀ a ∈ l, f a = 0) :
    (l.map f).sum = 0 := by
  refine List.sum_eq_zero ?_
  intro x hx
  obtain ⟨a, ha, rfl⟩ := List.mem_map.1 hx
  exact h a ha

/-- **C43** (refuted part) On a volume without any contrast whose value `c` is negative — say after
taking the logarithm of values above 1 — every weight is `0.9996 c`, below 0. -/
theorem detect_negative (d : DetectArgs) (hd : Fits d) (c : K) (hc : c < 0) (m m' : Cell → K)
    (hX : ∀ a, m (.input a) = c) (h : DetectRun d m m') (i j k : Int) (hin : InD d i j k) :
    m' (.out (d.dX * d.dY * k + j * d.dX + i)) = 0.9996 * c ∧
    m' (.out (d.dX * d.dY * k + j * d.dX + i)) < 0 := by
  have hr := ((detect_result_partial d hd m m' (fun _ _ _ => c) (fun _ _ _ _ => hX _) h).2
    i j k hin).2
  have hmem := hr.mem
  unfold specWindow at hmem
  obtain ⟨b, hb, hbe⟩ := List.mem_map.1 hmem
  have hg : ∀ i j k, specGrad d (fun _ _ _ => c) i j k = 0 := fun i j k => by
    unfold specGrad; ring
  have hP : ∀ i j k, specPlate d (fun _ _ _ => c) i j k = 0 := by
    intro i j k
    unfold specPlate
    rw [list_sum_map_zero _ _ fun a _ => list_sum_map_zero _ _ fun b _ => by rw [hg, abs_zero],
      zero_div]
  have hR : ∀ i j k, specRight d (fun _ _ _ => c) i j k = 0 := by
    intro i j k
    unfold specRight
    rw [list_sum_map_zero _ _ fun a _ => list_sum_map_zero _ _ fun b _ => by rw [hg, abs_zero],
      zero_div]
  have e : specWeight d (fun _ _ _ => c) i j (mir d.dZ k b) = 0.9996 * c := by
    unfold specWeight
    rw [if_pos ⟨hP _ _ _, hR _ _ _⟩]
    unfold specMean
    rw [min_eq_left]
    · ring
    · nlinarith
  rw [← hbe, e]
  refine ⟨rfl, ?_⟩
  nlinarith

/-- **C43** (refuted part) If the depth of the volume is less than twice the radius — for the
default radius 3 with up to five rows — the kernel reads beyond the end of the array, although the
arguments pass the checks. -/
theorem detect_out_of_bounds (d : DetectArgs) (hX : 0 < d.dX) (hY : 0 < d.dY) (hZ : 0 < d.dZ)
    (hr : (d.dY : Int) < 2 * d.radius) (m : Cell → K) :
    ∃ v : Vox, In d.dX d.dY d.dZ v ∧ ∃ a : Int, (d.dX * d.dY * d.dZ : Nat) ≤ a ∧
      Cell.out a ∈ (ratioBody d v).reads m := by
  obtain ⟨r, hr'⟩ : ∃ r : Nat, d.radius = r := ⟨d.radius.toNat, by omega⟩
  set j0 : Nat := d.dY - r with hj0
  refine ⟨(0, j0, d.dZ - 1), ⟨hX, by dsimp only; omega, by dsimp only; omega⟩,
    idx d.dX d.dY 0 (j0 + r : Nat) (d.dZ - 1 : Nat), ?_, ?_⟩
  · unfold idx
    have h1 : (d.dY : Int) ≤ ((j0 + r : Nat) : Int) := by omega
    have h2 := Int.mul_le_mul_of_nonneg_right h1 (by positivity : (0 : Int) ≤ d.dX)
    have h3 : ((d.dZ - 1 : Nat) : Int) = d.dZ - 1 := by omega
    rw [h3]
    push_cast at h2 ⊢
    have e : (d.dX : Int) * d.dY * (d.dZ - 1) = d.dX * d.dY * d.dZ - d.dY * d.dX := by ring
    rw [e]
    omega
  · have mem_reads : ∀ (ls : List Cell) (k : List K → Prog Cell K) (l : Cell), l ∈ ls →
        l ∈ (Prog.readAll ls k).reads m := by
      intro ls
      induction ls with
      | nil => intro k l h; cases h
      | cons c cs ih =>
        intro k l h
        rw [Prog.readAll, Prog.reads]
        rcases List.mem_cons.1 h with rfl | h
        · exact List.mem_cons_self
        · exact List.mem_cons_of_mem _ (ih _ l h)
    rw [ratioBody]
    refine mem_reads _ _ _ ?_
    unfold plateCells
    simp only [List.mem_flatMap, List.mem_map, mem_intRange]
    refine ⟨-d.radius, ⟨by omega, by omega⟩, 0, ⟨by omega, by omega⟩, ?_⟩
    congr 2
    · unfold refl
      rw [if_pos (by omega)]
      push_cast
      omega
    · unfold refl
      rw [if_neg (by omega)]
      omega

/-- A volume of 4 columns, 2 rows and 2 angles. -/
def sampleVol : Vol ℚ := fun i _ k => if i = 1 then 5 * k else i * (k + 1)

/-- **C43** (refuted part) The vertical filter is not a median filter: in this volume the weights in
a window are 9/10, 3/8, 9/10 and the result is 3/8. -/
theorem detect_not_median (m m' : Cell → ℚ) (hX : HoldsVol ⟨4, 2, 2, 1, 1⟩ .input sampleVol m)
    (h : DetectRun ⟨4, 2, 2, 1, 1⟩ m m') :
    specWindow ⟨4, 2, 2, 1, 1⟩ sampleVol 0 0 1 = [9 / 10, 3 / 8, 9 / 10] ∧ m' (.out 8) = 3 / 8 ∧
    ¬ IsMedian (specWindow ⟨4, 2, 2, 1, 1⟩ sampleVol 0 0 1) (m' (.out 8)) := by
  have w : specWindow ⟨4, 2, 2, 1, 1⟩ sampleVol 0 0 1 = [9 / 10, 3 / 8, 9 / 10] := by
    decide +kernel
  have hr := ((detect_result_partial _ (by unfold Fits; dsimp only; omega) m m' _ hX h).2 0 0 1
    (by unfold InD; dsimp only; omega)).2
  have e : (Cell.out ((4 : Nat) * (2 : Nat) * 1 + 0 * (4 : Nat) + 0)) = .out 8 := by norm_num
  dsimp only at hr
  rw [e, w] at hr
  have hv : m' (.out 8) = 3 / 8 := hr.unique (by unfold IsRank; decide +kernel)
  refine ⟨w, hv, ?_⟩
  rw [w, hv]
  unfold IsMedian
  decide +kernel

example : ∃ m m' : Cell → ℚ, HoldsVol ⟨4, 2, 2, 1, 1⟩ .input sampleVol m ∧
    DetectRun ⟨4, 2, 2, 1, 1⟩ m m' := by
  refine ⟨fun c => match c with
    | .input a => sampleVol (a % 4) (a / 4 % 2) (a / 8)
    | _ => 0, ?_⟩
  obtain ⟨m', h⟩ := detect_run_exists (K := ℚ) ⟨4, 2, 2, 1, 1⟩ (fun c => match c with
    | .input a => sampleVol (a % 4) (a / 4 % 2) (a / 8)
    | _ => 0)
  refine ⟨m', fun i j k hin => ?_, h⟩
  unfold InD at hin
  dsimp only at hin ⊢
  obtain ⟨h1, h2, h3, h4, h5, h6⟩ := hin
  congr 1 <;> push_cast <;> omega

/-! Sizes that fit, and arguments that pass the checks but do not fit. -/
example : Fits ⟨64, 20, 40, 10, 3⟩ := by unfold Fits; dsimp only; omega

example : detectArgs [40, 5, 64] 10 3 = .ok ⟨64, 5, 40, 10, 3⟩ := by
  norm_num [detectArgs]; decide

example : ∃ (m : Cell → ℚ), HoldsVol ⟨64, 20, 40, 10, 3⟩ .input (fun _ _ _ => (-1 : ℚ)) m :=
  ⟨fun _ => -1, fun _ _ _ _ => rfl⟩

end Tomopy.Stripe
