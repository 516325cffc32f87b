import Verif.Ray.Model
import Mathlib.Tactic.FieldSimp
import Mathlib.Tactic.LinearCombination
import Mathlib.Tactic.NormNum
import Mathlib.Tactic.Positivity
import Mathlib.Data.List.Range

/-!
# C29: the ray tracer stays inside its buffers and inside the image
-/

set_option linter.unusedSectionVars false

namespace Tomopy.Ray

variable {K : Type*} [Field K] [LinearOrder K] [IsStrictOrderedRing K] [FloorRing K]

/-! ## The trimming loops -/

theorem foldlM_push {α : Type*} (cap : Nat) (pt : Nat → Option α) (l : List Nat) (buf : List α)
    (hb : buf.length ≤ cap) :
    l.foldlM (trimStep cap pt) buf =
      if buf.length + (l.filterMap pt).length ≤ cap then some (buf ++ l.filterMap pt) else none := by
  induction l generalizing buf with
  | nil => simp [hb]
  | cons k l ih =>
    rw [List.foldlM_cons]
    cases hk : pt k with
    | none =>
      simp only [List.filterMap_cons, hk, trimStep]
      exact ih buf hb
    | some x =>
      simp only [List.filterMap_cons, hk, List.length_cons]
      rw [show trimStep cap pt buf k = push cap buf x by simp only [trimStep, hk], push]
      by_cases hl : buf.length < cap
      · rw [if_pos hl]
        show l.foldlM _ (buf ++ [x]) = _
        rw [ih (buf ++ [x]) (by simp; omega)]
        simp only [List.length_append, List.length_cons, List.length_nil, List.append_assoc,
          List.singleton_append]
        congr 1
        simp only [eq_iff_iff]
        omega
      · rw [if_neg hl, if_neg (by omega)]
        rfl

/-- The trimming loop keeps exactly the accepted crossings and stays inside the buffer
iff they fit. -/
theorem trimLoop_eq {α : Type*} (cap : Nat) (pt : Nat → Option α) (n : Nat) :
    trimLoop cap pt n =
      if ((List.range n).filterMap pt).length ≤ cap
        then some ((List.range n).filterMap pt) else none := by
  have h := foldlM_push cap pt (List.range n) [] (Nat.zero_le _)
  simpa [trimLoop] using h

/-- The kept crossings with horizontal lines. -/
def aList (rx rz : Nat) (yi sn cs : K) : List (K × K) :=
  (List.range (rz + 1)).filterMap (aPoint rx rz (coordx rz (rayX rx rz) yi sn cs))

/-- The kept crossings with vertical lines. -/
def bList (rx rz : Nat) (yi sn cs : K) : List (K × K) :=
  (List.range (rx + 1)).filterMap (bPoint rx rz (coordy rx (rayX rx rz) yi sn cs))

theorem filterMap_length_le_countP {α : Type*} (pt : Nat → Option α) (l : List Nat) :
    (l.filterMap pt).length = l.countP fun n => (pt n).isSome := by
  induction l with
  | nil => rfl
  | cons a l ih =>
    cases h : pt a <;> simp [h, ih]

theorem countP_ends (p : Nat → Bool) (k : Nat) :
    (List.range (k + 2)).countP p ≤ k + (if p 0 then 1 else 0) + (if p (k + 1) then 1 else 0) := by
  rw [List.range_succ, List.countP_append, List.range_succ_eq_map, List.countP_cons]
  have h1 : (List.map Nat.succ (List.range k)).countP p ≤ k := by
    refine le_trans List.countP_le_length ?_
    simp
  simp only [List.countP_cons, List.countP_nil]
  omega

/-! ## Geometry -/

theorem inside_iff {r : Nat} {v : K} :
    inside r v = true ↔ grid r 0 + 1 / 100 ≤ v ∧ v ≤ grid r r - 1 / 100 := by
  simp [inside]

theorem grid_zero (r : Nat) : (grid r 0 : K) = -(r : K) / 2 := by
  simp [grid]; ring

theorem grid_self (r : Nat) : (grid r r : K) = (r : K) / 2 := by
  simp [grid]; ring

theorem inside_lt {r : Nat} {v : K} (h : inside r v = true) :
    -(r : K) / 2 < v ∧ v < (r : K) / 2 := by
  rw [inside_iff, grid_zero, grid_self] at h
  constructor <;> linarith [h.1, h.2]

theorem not_inside_zero (v : K) : inside 0 v = false := by
  by_contra h
  have := inside_lt (K := K) (by simpa using h)
  simp at this
  linarith [this.1, this.2]

theorem aPoint_some {rx rz : Nat} {cx : Nat → Option K} {n : Nat} {P : K × K} :
    aPoint rx rz cx n = some P ↔ cx n = some P.1 ∧ inside rx P.1 = true ∧ P.2 = grid rz n := by
  unfold aPoint
  cases h : cx n with
  | none => simp
  | some x =>
    obtain ⟨p, q⟩ := P
    by_cases hi : inside rx x = true
    · simp only [hi, if_true, Option.some.injEq, Prod.mk.injEq]
      constructor
      · rintro ⟨rfl, rfl⟩; exact ⟨rfl, hi, rfl⟩
      · rintro ⟨rfl, _, rfl⟩; exact ⟨rfl, rfl⟩
    · simp only [hi]
      constructor
      · intro h; cases h
      · rintro ⟨h1, h2, _⟩
        cases h1
        exact absurd h2 hi

theorem bPoint_some {rx rz : Nat} {cy : Nat → Option K} {n : Nat} {P : K × K} :
    bPoint rx rz cy n = some P ↔ cy n = some P.2 ∧ inside rz P.2 = true ∧ P.1 = grid rx n := by
  unfold bPoint
  cases h : cy n with
  | none => simp
  | some x =>
    obtain ⟨p, q⟩ := P
    by_cases hi : inside rz x = true
    · simp only [hi, if_true, Option.some.injEq, Prod.mk.injEq]
      constructor
      · rintro ⟨rfl, rfl⟩; exact ⟨rfl, hi, rfl⟩
      · rintro ⟨rfl, _, rfl⟩; exact ⟨rfl, rfl⟩
    · simp only [hi]
      constructor
      · intro h; cases h
      · rintro ⟨h1, h2, _⟩
        cases h1
        exact absurd h2 hi

/-- The direction of the ray as computed in `calc_coords`. -/
theorem src_sub_det_x (xi yi sn cs : K) :
    srcx xi yi sn cs - detx xi yi sn cs = 2 * xi * cs := by simp only [srcx, detx]; ring
theorem src_sub_det_y (xi yi sn cs : K) :
    srcy xi yi sn cs - dety xi yi sn cs = 2 * xi * sn := by simp only [srcy, dety]; ring

theorem rayX_ne {rx rz : Nat} (h : 0 < rx + rz) : (rayX rx rz : K) ≠ 0 := by
  have : (0 : K) < (rx : K) + rz := by exact_mod_cast h
  simp only [rayX]
  intro h0
  linarith

theorem coordx_some {rx rz : Nat} {yi sn cs x : K} {n : Nat}
    (h : coordx rz (rayX rx rz) yi sn cs n = some x) :
    sn ≠ 0 ∧ (rayX rx rz : K) ≠ 0 ∧
      (x - srcx (rayX rx rz) yi sn cs) * sn = (grid rz n - srcy (rayX rx rz) yi sn cs) * cs := by
  simp only [coordx, islope, divF, src_sub_det_x, src_sub_det_y] at h
  split at h
  · cases h
  · rename_i hne
    have hsn : sn ≠ 0 := by rintro rfl; simp at hne
    have hx : (rayX rx rz : K) ≠ 0 := by intro h0; simp [h0] at hne
    refine ⟨hsn, hx, ?_⟩
    simp only [Option.map_some, Option.some.injEq] at h
    rw [← h]
    field_simp
    ring

theorem coordy_some {rx rz : Nat} {yi sn cs y : K} {n : Nat}
    (h : coordy rx (rayX rx rz) yi sn cs n = some y) :
    cs ≠ 0 ∧ (rayX rx rz : K) ≠ 0 ∧
      (grid rx n - srcx (rayX rx rz) yi sn cs) * sn = (y - srcy (rayX rx rz) yi sn cs) * cs := by
  simp only [coordy, slope, divF, src_sub_det_x, src_sub_det_y] at h
  split at h
  · cases h
  · rename_i hne
    have hcs : cs ≠ 0 := by rintro rfl; simp at hne
    have hx : (rayX rx rz : K) ≠ 0 := by intro h0; simp [h0] at hne
    refine ⟨hcs, hx, ?_⟩
    simp only [Option.map_some, Option.some.injEq] at h
    rw [← h]
    field_simp
    ring

theorem grid_bounds {r n : Nat} (h : n ≤ r) :
    -(r : K) / 2 ≤ grid r n ∧ (grid r n : K) ≤ (r : K) / 2 := by
  have h1 : (n : K) ≤ r := by exact_mod_cast h
  have h2 : (0 : K) ≤ n := by exact_mod_cast Nat.zero_le n
  simp only [grid]
  constructor <;> linarith

/-- Two kept crossings, one with a horizontal and one with a vertical line, are on one line. -/
theorem ab_line {rx rz n m : Nat} {yi sn cs : K} {P Q : K × K}
    (hP : aPoint rx rz (coordx rz (rayX rx rz) yi sn cs) n = some P)
    (hQ : bPoint rx rz (coordy rx (rayX rx rz) yi sn cs) m = some Q) :
    sn ≠ 0 ∧ cs ≠ 0 ∧ (P.1 - Q.1) * sn = (P.2 - Q.2) * cs := by
  rw [aPoint_some] at hP
  rw [bPoint_some] at hQ
  obtain ⟨h1, _, h3⟩ := coordx_some hP.1
  obtain ⟨h4, _, h6⟩ := coordy_some hQ.1
  refine ⟨h1, h4, ?_⟩
  rw [hP.2.2, hQ.2.2]
  linear_combination h3 - h6

/-- A horizontal and a vertical border line that meet in a corner of the image cannot both
contribute a crossing (corner below or above on the diagonal side given by the slope). -/
theorem corner_excl {rx rz n m : Nat} {yi sn cs : K} {P Q : K × K}
    (hP : aPoint rx rz (coordx rz (rayX rx rz) yi sn cs) n = some P)
    (hQ : bPoint rx rz (coordy rx (rayX rx rz) yi sn cs) m = some Q)
    (hc : (n = 0 ∧ m = 0 ∧ 0 < sn * cs) ∨ (n = rz ∧ m = rx ∧ 0 < sn * cs) ∨
      (n = 0 ∧ m = rx ∧ sn * cs < 0) ∨ (n = rz ∧ m = 0 ∧ sn * cs < 0)) : False := by
  obtain ⟨hsn, hcs, hl⟩ := ab_line hP hQ
  rw [aPoint_some] at hP
  rw [bPoint_some] at hQ
  obtain ⟨_, hPi, hP2⟩ := hP
  obtain ⟨_, hQi, hQ1⟩ := hQ
  have hx := inside_lt hPi
  have hy := inside_lt hQi
  have hs2 : 0 < sn * sn := mul_self_pos.mpr hsn
  -- (P.1 - Q.1) * sn² = (P.2 - Q.2) * (sn * cs)
  have hl2 : (P.1 - Q.1) * (sn * sn) = (P.2 - Q.2) * (sn * cs) := by
    linear_combination sn * hl
  rcases hc with ⟨rfl, rfl, h⟩ | ⟨rfl, rfl, h⟩ | ⟨rfl, rfl, h⟩ | ⟨rfl, rfl, h⟩
  · rw [grid_zero] at hP2 hQ1
    have h1 : 0 < (P.1 - Q.1) * (sn * sn) := mul_pos (by linarith) hs2
    have h2 : (P.2 - Q.2) * (sn * cs) < 0 := mul_neg_of_neg_of_pos (by linarith) h
    linarith
  · rw [grid_self] at hP2 hQ1
    have h1 : (P.1 - Q.1) * (sn * sn) < 0 := mul_neg_of_neg_of_pos (by linarith) hs2
    have h2 : 0 < (P.2 - Q.2) * (sn * cs) := mul_pos (by linarith) h
    linarith
  · rw [grid_zero] at hP2
    rw [grid_self] at hQ1
    have h1 : (P.1 - Q.1) * (sn * sn) < 0 := mul_neg_of_neg_of_pos (by linarith) hs2
    have h2 : 0 < (P.2 - Q.2) * (sn * cs) := mul_pos_of_neg_of_neg (by linarith) h
    linarith
  · rw [grid_self] at hP2
    rw [grid_zero] at hQ1
    have h1 : 0 < (P.1 - Q.1) * (sn * sn) := mul_pos (by linarith) hs2
    have h2 : (P.2 - Q.2) * (sn * cs) < 0 := mul_neg_of_pos_of_neg (by linarith) h
    linarith

theorem aPoint_none_of_sn {rx rz n : Nat} {yi sn cs : K} (h : sn = 0) :
    aPoint rx rz (coordx rz (rayX rx rz) yi sn cs) n = none := by
  cases hp : aPoint rx rz (coordx rz (rayX rx rz) yi sn cs) n with
  | none => rfl
  | some P =>
    rw [aPoint_some] at hp
    exact absurd h (coordx_some hp.1).1

theorem bPoint_none_of_cs {rx rz n : Nat} {yi sn cs : K} (h : cs = 0) :
    bPoint rx rz (coordy rx (rayX rx rz) yi sn cs) n = none := by
  cases hp : bPoint rx rz (coordy rx (rayX rx rz) yi sn cs) n with
  | none => rfl
  | some P =>
    rw [bPoint_some] at hp
    exact absurd h (coordy_some hp.1).1

theorem aPoint_none_of_rx {rz n : Nat} {cx : Nat → Option K} : aPoint 0 rz cx n = none := by
  cases hp : aPoint 0 rz cx n with
  | none => rfl
  | some P =>
    rw [aPoint_some, not_inside_zero] at hp
    exact absurd hp.2.1 (by simp)

theorem bPoint_none_of_rz {rx n : Nat} {cy : Nat → Option K} : bPoint rx 0 cy n = none := by
  cases hp : bPoint rx 0 cy n with
  | none => rfl
  | some P =>
    rw [bPoint_some, not_inside_zero] at hp
    exact absurd hp.2.1 (by simp)

theorem filterMap_nil_of {α : Type*} {pt : Nat → Option α} (h : ∀ n, pt n = none) (l : List Nat) :
    l.filterMap pt = [] := by
  rw [List.filterMap_eq_nil_iff]
  intro a _
  exact h a

theorem aList_length_le (rx rz : Nat) (yi sn cs : K) : (aList rx rz yi sn cs).length ≤ rz + 1 := by
  refine le_trans (List.length_filterMap_le _ _) ?_
  simp

theorem bList_length_le (rx rz : Nat) (yi sn cs : K) : (bList rx rz yi sn cs).length ≤ rx + 1 := by
  refine le_trans (List.length_filterMap_le _ _) ?_
  simp

/-- **At most `rx + rz` grid crossings of a ray are kept** for an image of `rx * rz` pixels:
two fewer than the number of grid lines. -/
theorem crossings_le (rx rz : Nat) (yi sn cs : K) :
    (aList rx rz yi sn cs).length + (bList rx rz yi sn cs).length ≤ rx + rz := by
  rcases Nat.eq_zero_or_pos rx with rfl | hrx
  · have ha : aList 0 rz yi sn cs = [] := filterMap_nil_of (fun n => aPoint_none_of_rx) _
    rw [ha]
    rcases Nat.eq_zero_or_pos rz with rfl | hrz
    · have hb : bList 0 0 yi sn cs = [] := filterMap_nil_of (fun n => bPoint_none_of_rz) _
      simp [hb]
    · have := bList_length_le 0 rz yi sn cs
      simp only [List.length_nil]
      omega
  rcases Nat.eq_zero_or_pos rz with rfl | hrz
  · have hb : bList rx 0 yi sn cs = [] := filterMap_nil_of (fun n => bPoint_none_of_rz) _
    have := aList_length_le rx 0 yi sn cs
    rw [hb]
    simp only [List.length_nil]
    omega
  by_cases hsn : sn = 0
  · have ha : aList rx rz yi sn cs = [] := filterMap_nil_of (fun n => aPoint_none_of_sn hsn) _
    have := bList_length_le rx rz yi sn cs
    rw [ha]
    simp only [List.length_nil]
    omega
  by_cases hcs : cs = 0
  · have hb : bList rx rz yi sn cs = [] := filterMap_nil_of (fun n => bPoint_none_of_cs hcs) _
    have := aList_length_le rx rz yi sn cs
    rw [hb]
    simp only [List.length_nil]
    omega
  obtain ⟨k, rfl⟩ : ∃ k, rx = k + 1 := ⟨rx - 1, by omega⟩
  obtain ⟨l, rfl⟩ : ∃ l, rz = l + 1 := ⟨rz - 1, by omega⟩
  set pa : Nat → Option (K × K) :=
    aPoint (k + 1) (l + 1) (coordx (l + 1) (rayX (k + 1) (l + 1)) yi sn cs) with hpa
  set pb : Nat → Option (K × K) :=
    bPoint (k + 1) (l + 1) (coordy (k + 1) (rayX (k + 1) (l + 1)) yi sn cs) with hpb
  have hA : (aList (k + 1) (l + 1) yi sn cs).length ≤
      l + (if (pa 0).isSome then 1 else 0) + (if (pa (l + 1)).isSome then 1 else 0) := by
    rw [aList, filterMap_length_le_countP]
    exact countP_ends _ _
  have hB : (bList (k + 1) (l + 1) yi sn cs).length ≤
      k + (if (pb 0).isSome then 1 else 0) + (if (pb (k + 1)).isSome then 1 else 0) := by
    rw [bList, filterMap_length_le_countP]
    exact countP_ends _ _
  have key : ∀ n m, ((n = 0 ∧ m = 0 ∧ 0 < sn * cs) ∨ (n = l + 1 ∧ m = k + 1 ∧ 0 < sn * cs) ∨
      (n = 0 ∧ m = k + 1 ∧ sn * cs < 0) ∨ (n = l + 1 ∧ m = 0 ∧ sn * cs < 0)) →
      (if (pa n).isSome then 1 else 0) + (if (pb m).isSome then 1 else 0) ≤ 1 := by
    intro n m hc
    cases h1 : pa n with
    | none => simp; split <;> omega
    | some P =>
      cases h2 : pb m with
      | none => simp
      | some Q => exact (corner_excl h1 h2 hc).elim
  have hne : sn * cs ≠ 0 := mul_ne_zero hsn hcs
  rcases lt_or_gt_of_ne hne with hneg | hpos
  · have h1 := key 0 (k + 1) (by simp [hneg])
    have h2 := key (l + 1) 0 (by simp [hneg])
    omega
  · have h1 := key 0 0 (by simp [hpos])
    have h2 := key (l + 1) (k + 1) (by simp [hpos])
    omega

/-! ## Merging -/

theorem mergeX_perm (as bs : List (K × K)) : (mergeX as bs).Perm (as ++ bs) := by
  fun_induction mergeX as bs with
  | case1 bs => simp
  | case2 as _ => simp
  | case3 a as b bs h ih => exact ih.cons a
  | case4 a as b bs h ih =>
    refine (ih.cons b).trans ?_
    exact (List.perm_middle).symm

/-- `sort_intersections` permutes the kept crossings. -/
theorem sortIntersections_perm (q : Int) (as bs : List (K × K)) :
    (sortIntersections q as bs).Perm (as ++ bs) := by
  unfold sortIntersections
  split
  · exact (mergeX_perm _ _).trans (List.Perm.append_right _ as.reverse_perm)
  · exact mergeX_perm _ _

theorem calcDist_length (hyp : K → K → K) (rx rz : Nat) (l : List (K × K)) :
    (calcDist hyp rx rz l).length = l.length - 1 := by
  fun_induction calcDist hyp rx rz l with
  | case1 => rfl
  | case2 => rfl
  | case3 P Q rest ih => simp only [List.length_cons] at ih ⊢; omega

/-- The result of the tracer when the buffers are large enough. -/
theorem trace_eq (hyp : K → K → K) (caps : Caps) (q : Int) (rx rz : Nat) (yi sn cs : K) :
    trace hyp caps q rx rz yi sn cs =
      if (aList rx rz yi sn cs).length ≤ caps.ab ∧ (bList rx rz yi sn cs).length ≤ caps.ab ∧
          (aList rx rz yi sn cs).length + (bList rx rz yi sn cs).length ≤ caps.coor ∧
          (aList rx rz yi sn cs).length + (bList rx rz yi sn cs).length - 1 ≤ caps.seg
      then some (calcDist hyp rx rz
        (sortIntersections q (aList rx rz yi sn cs) (bList rx rz yi sn cs)))
      else none := by
  unfold trace
  rw [trimLoop_eq, trimLoop_eq]
  show (do
    let as ← (if (aList rx rz yi sn cs).length ≤ caps.ab then some (aList rx rz yi sn cs) else none)
    let bs ← (if (bList rx rz yi sn cs).length ≤ caps.ab then some (bList rx rz yi sn cs) else none)
    if as.length + bs.length ≤ caps.coor ∧ as.length + bs.length - 1 ≤ caps.seg then
      some (calcDist hyp rx rz (sortIntersections q as bs))
    else none) = _
  by_cases ha : (aList rx rz yi sn cs).length ≤ caps.ab
  · by_cases hb : (bList rx rz yi sn cs).length ≤ caps.ab
    · simp [ha, hb]
    · simp [ha, hb]
  · simp [ha]

/-! ## Pixel indices -/

theorem cTrunc_floor (x : K) : cTrunc x - (if (cTrunc x : K) > x then 1 else 0) = ⌊x⌋ := by
  unfold cTrunc
  by_cases hx : 0 ≤ x
  · rw [if_pos hx, if_neg (not_lt.mpr (Int.floor_le x)), sub_zero]
  · rw [if_neg hx]
    by_cases hc : (⌈x⌉ : K) > x
    · rw [if_pos hc]
      symm
      rw [Int.floor_eq_iff]
      have h1 := Int.ceil_lt_add_one x
      push_cast
      constructor <;> linarith
    · rw [if_neg hc, sub_zero]
      have h1 := Int.le_ceil x
      have h2 : (⌈x⌉ : K) = x := le_antisymm (not_lt.mp hc) h1
      symm
      rw [Int.floor_eq_iff]
      constructor <;> linarith

/-- The index computed along one axis is the floor of the shifted mid point. -/
theorem pixelIndex_eq (r : Nat) (v0 v1 : K) :
    pixelIndex r v0 v1 = ⌊(v0 + v1) / 2 + (r : K) / 2⌋ := by
  unfold pixelIndex
  rw [cTrunc_floor]
  congr 1
  ring

/-- Pixel `i` of an axis with `r` pixels covers `[grid r i, grid r (i+1))`. -/
theorem pixelIndex_mem {r : Nat} {v0 v1 : K}
    (h0 : -(r : K) / 2 ≤ (v0 + v1) / 2) (h1 : (v0 + v1) / 2 < (r : K) / 2) :
    ∃ i : Nat, i < r ∧ pixelIndex r v0 v1 = i ∧
      grid r i ≤ (v0 + v1) / 2 ∧ (v0 + v1) / 2 < grid r (i + 1) := by
  rw [pixelIndex_eq]
  have hnn : (0 : Int) ≤ ⌊(v0 + v1) / 2 + (r : K) / 2⌋ := by
    rw [Int.le_floor]; push_cast; linarith
  obtain ⟨i, hi⟩ := Int.eq_ofNat_of_zero_le hnn
  refine ⟨i, ?_, hi, ?_, ?_⟩
  · have : ⌊(v0 + v1) / 2 + (r : K) / 2⌋ < (r : Int) := by
      rw [Int.floor_lt]; push_cast; linarith
    omega
  · have := Int.floor_le ((v0 + v1) / 2 + (r : K) / 2)
    rw [hi] at this
    simp only [grid]
    push_cast at this
    linarith
  · have := Int.lt_floor_add_one ((v0 + v1) / 2 + (r : K) / 2)
    rw [hi] at this
    simp only [grid]
    push_cast at this ⊢
    linarith

/-- What is known of a kept crossing, independent of the slope: it lies in the closed image,
strictly inside in one of the two coordinates. -/
def Kept (rx rz : Nat) (P : K × K) : Prop :=
  (-(rx : K) / 2 ≤ P.1 ∧ P.1 ≤ (rx : K) / 2) ∧ (-(rz : K) / 2 ≤ P.2 ∧ P.2 ≤ (rz : K) / 2)

/-- Two distinct entries of the crossing list do not lie on the same upper border. -/
def Apart (rx rz : Nat) (P Q : K × K) : Prop :=
  (P.1 < (rx : K) / 2 ∨ Q.1 < (rx : K) / 2) ∧ (P.2 < (rz : K) / 2 ∨ Q.2 < (rz : K) / 2)

theorem Apart.symm {rx rz : Nat} {P Q : K × K} (h : Apart rx rz P Q) : Apart rx rz Q P :=
  ⟨h.1.symm, h.2.symm⟩

theorem mem_aList {rx rz : Nat} {yi sn cs : K} {P : K × K} (h : P ∈ aList rx rz yi sn cs) :
    ∃ n, n ≤ rz ∧ aPoint rx rz (coordx rz (rayX rx rz) yi sn cs) n = some P := by
  rw [aList, List.mem_filterMap] at h
  obtain ⟨n, hn, hp⟩ := h
  rw [List.mem_range] at hn
  exact ⟨n, by omega, hp⟩

theorem mem_bList {rx rz : Nat} {yi sn cs : K} {P : K × K} (h : P ∈ bList rx rz yi sn cs) :
    ∃ n, n ≤ rx ∧ bPoint rx rz (coordy rx (rayX rx rz) yi sn cs) n = some P := by
  rw [bList, List.mem_filterMap] at h
  obtain ⟨n, hn, hp⟩ := h
  rw [List.mem_range] at hn
  exact ⟨n, by omega, hp⟩

theorem kept_a {rx rz : Nat} {yi sn cs : K} {P : K × K} (h : P ∈ aList rx rz yi sn cs) :
    Kept rx rz P ∧ P.1 < (rx : K) / 2 := by
  obtain ⟨n, hn, hp⟩ := mem_aList h
  rw [aPoint_some] at hp
  have := inside_lt hp.2.1
  refine ⟨⟨⟨this.1.le, this.2.le⟩, ?_⟩, this.2⟩
  rw [hp.2.2]
  exact grid_bounds hn

theorem kept_b {rx rz : Nat} {yi sn cs : K} {P : K × K} (h : P ∈ bList rx rz yi sn cs) :
    Kept rx rz P ∧ P.2 < (rz : K) / 2 := by
  obtain ⟨n, hn, hp⟩ := mem_bList h
  rw [bPoint_some] at hp
  have := inside_lt hp.2.1
  refine ⟨⟨?_, ⟨this.1.le, this.2.le⟩⟩, this.2⟩
  rw [hp.2.2]
  exact grid_bounds hn

theorem pairwise_aList (rx rz : Nat) (yi sn cs : K) :
    (aList rx rz yi sn cs).Pairwise fun P Q => P.2 < Q.2 := by
  unfold aList
  rw [List.pairwise_filterMap]
  refine (List.pairwise_lt_range).imp ?_
  intro n m hnm P hP Q hQ
  rw [aPoint_some] at hP hQ
  rw [hP.2.2, hQ.2.2]
  have : (n : K) < m := by exact_mod_cast hnm
  simp only [grid]
  linarith

theorem pairwise_bList (rx rz : Nat) (yi sn cs : K) :
    (bList rx rz yi sn cs).Pairwise fun P Q => P.1 < Q.1 := by
  unfold bList
  rw [List.pairwise_filterMap]
  refine (List.pairwise_lt_range).imp ?_
  intro n m hnm P hP Q hQ
  rw [bPoint_some] at hP hQ
  rw [hP.2.2, hQ.2.2]
  have : (n : K) < m := by exact_mod_cast hnm
  simp only [grid]
  linarith

theorem pairwise_apart (rx rz : Nat) (yi sn cs : K) :
    (aList rx rz yi sn cs ++ bList rx rz yi sn cs).Pairwise (Apart rx rz) := by
  rw [List.pairwise_append]
  refine ⟨?_, ?_, ?_⟩
  · refine (pairwise_aList rx rz yi sn cs).imp_of_mem ?_
    intro P Q hP hQ h
    exact ⟨Or.inl (kept_a hP).2, Or.inl (lt_of_lt_of_le h (kept_a hQ).1.2.2)⟩
  · refine (pairwise_bList rx rz yi sn cs).imp_of_mem ?_
    intro P Q hP hQ h
    exact ⟨Or.inl (lt_of_lt_of_le h (kept_b hQ).1.1.2), Or.inl (kept_b hP).2⟩
  · intro P hP Q hQ
    exact ⟨Or.inl (kept_a hP).2, Or.inr (kept_b hQ).2⟩

/-- The list of crossings after `sort_intersections`. -/
def crossings (q : Int) (rx rz : Nat) (yi sn cs : K) : List (K × K) :=
  sortIntersections q (aList rx rz yi sn cs) (bList rx rz yi sn cs)

theorem crossings_perm (q : Int) (rx rz : Nat) (yi sn cs : K) :
    (crossings q rx rz yi sn cs).Perm (aList rx rz yi sn cs ++ bList rx rz yi sn cs) :=
  sortIntersections_perm _ _ _

theorem crossings_apart (q : Int) (rx rz : Nat) (yi sn cs : K) :
    (crossings q rx rz yi sn cs).Pairwise (Apart rx rz) :=
  ((crossings_perm q rx rz yi sn cs).pairwise_iff (fun {_ _} h => Apart.symm h)).mpr
    (pairwise_apart rx rz yi sn cs)

theorem crossings_kept {q : Int} {rx rz : Nat} {yi sn cs : K} {P : K × K}
    (h : P ∈ crossings q rx rz yi sn cs) : Kept rx rz P := by
  rw [(crossings_perm q rx rz yi sn cs).mem_iff, List.mem_append] at h
  rcases h with h | h
  · exact (kept_a h).1
  · exact (kept_b h).1

/-- The pixel `(ix, iy)` that contains the mid point of `P` and `Q` (half-open pixels). -/
def MidIn (rx rz : Nat) (P Q : K × K) (ix iy : Nat) : Prop :=
  grid rx ix ≤ (P.1 + Q.1) / 2 ∧ (P.1 + Q.1) / 2 < grid rx (ix + 1) ∧
  grid rz iy ≤ (P.2 + Q.2) / 2 ∧ (P.2 + Q.2) / 2 < grid rz (iy + 1)

theorem segment_pixel {rx rz : Nat} {P Q : K × K} (hP : Kept rx rz P) (hQ : Kept rx rz Q)
    (h : Apart rx rz P Q) :
    ∃ ix iy : Nat, ix < rx ∧ iy < rz ∧ MidIn rx rz P Q ix iy ∧
      pixelIndex rz P.2 Q.2 + pixelIndex rx P.1 Q.1 * (rz : Int) = ((iy + ix * rz : Nat) : Int) := by
  obtain ⟨ix, hix, hex, hx1, hx2⟩ := pixelIndex_mem (r := rx) (v0 := P.1) (v1 := Q.1)
    (by linarith [hP.1.1, hQ.1.1]) (by rcases h.1 with h | h <;> linarith [hP.1.2, hQ.1.2])
  obtain ⟨iy, hiy, hey, hy1, hy2⟩ := pixelIndex_mem (r := rz) (v0 := P.2) (v1 := Q.2)
    (by linarith [hP.2.1, hQ.2.1]) (by rcases h.2 with h | h <;> linarith [hP.2.2, hQ.2.2])
  refine ⟨ix, iy, hix, hiy, ⟨hx1, hx2, hy1, hy2⟩, ?_⟩
  rw [hex, hey]
  push_cast
  ring

/-- Every element of `calcDist` belongs to two neighbouring points of the list. -/
theorem mem_calcDist {hyp : K → K → K} {rx rz : Nat} {l : List (K × K)} {e : Int × K}
    (h : e ∈ calcDist hyp rx rz l) :
    ∃ l1 P Q l2, l = l1 ++ P :: Q :: l2 ∧
      e = (pixelIndex rz P.2 Q.2 + pixelIndex rx P.1 Q.1 * (rz : Int),
        hyp (Q.1 - P.1) (Q.2 - P.2)) := by
  fun_induction calcDist hyp rx rz l with
  | case1 => simp at h
  | case2 => simp at h
  | case3 P Q rest ih =>
    rcases List.mem_cons.mp h with rfl | h
    · exact ⟨[], P, Q, rest, rfl, rfl⟩
    · obtain ⟨l1, P', Q', l2, hl, he⟩ := ih h
      exact ⟨P :: l1, P', Q', l2, by rw [hl]; rfl, he⟩

/-- **C29.** For every image size, every ray (any offset, any direction, any quadrant flag)
the tracer never writes outside the buffers allocated by the reconstruction routines, and
every pixel index it produces addresses the slice of `rx * rz` pixels. -/
theorem trace_safe (hyp : K → K → K) (q : Int) (rx rz : Nat) (yi sn cs : K) :
    ∃ segs, trace hyp (capsRecon rx rz) q rx rz yi sn cs = some segs ∧
      segs.length ≤ rx + rz - 1 ∧
      ∀ e ∈ segs, 0 ≤ e.1 ∧ e.1 < (rx * rz : Nat) := by
  have hle := crossings_le rx rz yi sn cs
  rw [trace_eq, if_pos (by simp only [capsRecon]; omega)]
  refine ⟨_, rfl, ?_, ?_⟩
  · rw [calcDist_length, (sortIntersections_perm _ _ _).length_eq, List.length_append]
    omega
  · intro e he
    obtain ⟨l1, P, Q, l2, hl, rfl⟩ := mem_calcDist he
    have hmem : ∀ R ∈ [P, Q], R ∈ crossings q rx rz yi sn cs := by
      intro R hR
      rw [crossings, hl]
      simp only [List.mem_cons, List.not_mem_nil, or_false] at hR
      rcases hR with rfl | rfl <;> simp
    have hap := crossings_apart q rx rz yi sn cs
    rw [crossings, hl, List.pairwise_append] at hap
    have hPQ : Apart rx rz P Q := by
      have := hap.2.1
      rw [List.pairwise_cons] at this
      exact this.1 Q (by simp)
    obtain ⟨ix, iy, hix, hiy, _, he⟩ := segment_pixel
      (crossings_kept (hmem P (by simp))) (crossings_kept (hmem Q (by simp))) hPQ
    simp only [he]
    refine ⟨Int.natCast_nonneg _, ?_⟩
    have : iy + ix * rz < rx * rz := by
      calc iy + ix * rz < rz + ix * rz := by omega
        _ = (ix + 1) * rz := by ring
        _ ≤ rx * rz := Nat.mul_le_mul_right _ hix
    exact_mod_cast this

/-- The buffers of `project` are large enough as well, and give the same segments. -/
theorem trace_safe_project (hyp : K → K → K) (q : Int) (rx rz : Nat) (yi sn cs : K) :
    trace hyp (capsProject rx rz) q rx rz yi sn cs = trace hyp (capsRecon rx rz) q rx rz yi sn cs := by
  have hle := crossings_le rx rz yi sn cs
  rw [trace_eq, trace_eq, if_pos (by simp only [capsProject]; omega),
    if_pos (by simp only [capsRecon]; omega)]

/-- The bound is tight: a buffer with one element less overflows for a real ray. -/
example : trace (K := ℚ) (fun a b => |a| + |b|) ⟨3, 3, 3⟩ 1 2 2 0 (3/5) (4/5) = none ∧
    (trace (K := ℚ) (fun a b => |a| + |b|) (capsRecon 2 2) 1 2 2 0 (3/5) (4/5)).isSome := by
  decide +kernel

/-- A concrete oblique ray through a 2 × 3 image: the three pixels in the order of passage. -/
example : (trace (K := ℚ) (fun a b => |a| + |b|) (capsRecon 2 3) 1 2 3 (1/4) (3/5) (4/5)).map
    (fun l => l.map Prod.fst) = some [1, 4, 5] := by
  decide +kernel

end Tomopy.Ray
