import Verif.Ring.Sort
import Verif.Num.Order
import Mathlib.Data.List.Nodup
import Mathlib.Data.List.NodupEquivFin
import Mathlib.Data.List.GetD
import Mathlib.Data.Rat.Floor

/-! The rolling median of remove_ring.c:260-325 gives at every column the middle order statistic of
a window that is described directly here. -/

set_option linter.unusedSectionVars false

namespace Tomopy.Ring

open Num

section
variable {K : Type} [Field K] [LinearOrder K] [IsStrictOrderedRing K] [FloorRing K]

/-! ### Specification -/

/-- Row on the other side of the centre. -/
def opposite (h row : Nat) : Nat := if row < h / 2 then row + h / 2 else row - h / 2

/-- The polar image continued: to the left of the centre lies the opposite row, to the right of the
last column there are zeros. -/
def cont (img : Img K) (row : Nat) (c : Int) : K :=
  if c < 0 then img.px (opposite img.h row) (-c).toNat
  else if c < img.w then img.px row c.toNat else 0

/-- The window of radius `k` around column `col`. -/
def window (img : Img K) (row col k : Nat) : List K :=
  (List.range (2 * k + 1)).map fun i : Nat => cont img row ((col : Int) - k + i)

/-! ### Reading -/

theorem rd_eq (img : Img K) {row col : Int} (h1 : 0 ≤ row) (h2 : row < img.h) (h3 : 0 ≤ col)
    (h4 : col < img.w) : img.rd row col = some (img.px row.toNat col.toNat) := by
  obtain ⟨r, rfl⟩ := Int.eq_ofNat_of_zero_le h1
  obtain ⟨c, rfl⟩ := Int.eq_ofNat_of_zero_le h3
  have hr : r < img.h := by exact_mod_cast h2
  have hc : c < img.w := by exact_mod_cast h4
  have e : ((r : Int) * img.w + c) = ((r * img.w + c : Nat) : Int) := by push_cast; rfl
  have hlt : r * img.w + c < img.h * img.w := by
    calc r * img.w + c < r * img.w + img.w := by omega
      _ = (r + 1) * img.w := by ring
      _ ≤ img.h * img.w := Nat.mul_le_mul_right _ hr
  unfold Img.rd
  rw [if_pos ⟨h1, h2, by rw [e]; omega, by rw [e]; exact_mod_cast hlt⟩, e]
  have e1 : (r * img.w + c) / img.w = r := by
    rw [Nat.mul_comm, Nat.mul_add_div (by omega), Nat.div_eq_of_lt hc, Nat.add_zero]
  have e2 : (r * img.w + c) % img.w = c := by
    rw [Nat.mul_comm, Nat.mul_add_mod, Nat.mod_eq_of_lt hc]
  rw [Int.toNat_natCast, e1, e2]
  rfl

theorem opposite_lt {h row : Nat} (hr : row < h) : opposite h row < h := by
  unfold opposite
  split_ifs <;> omega

theorem medFirst_eq (img : Img K) (row start k : Nat) (hr : row < img.h) (hk : start + k < img.w)
    (i : Int) (h0 : 0 ≤ i) (h1 : i ≤ 2 * k) :
    medFirst img row start k i = some (cont img row ((start : Int) - k + i)) := by
  unfold medFirst cont
  dsimp only
  have e : (start : Int) + (i - k) = start - k + i := by ring
  rw [e]
  split_ifs with c1 c2 c3
  · have ho := opposite_lt hr
    simp only [opposite, c2, if_true] at ho ⊢
    rw [rd_eq img (by omega) (by omega) (by omega) (by omega)]
    congr 1
  · have ho := opposite_lt hr
    simp only [opposite, c2, if_false] at ho ⊢
    rw [rd_eq img (by omega) (by omega) (by omega) (by omega)]
    congr 2
    omega
  · rw [rd_eq img (by omega) (by omega) (by omega) (by omega)]
    congr 1
  · omega

/-! ### Invariant -/

/-- The arrays hold the window around `col` in ascending order, each value with its place in the
window. -/
def Holds (img : Img K) (row k : Nat) (col : Int) (s : Arr K) : Prop :=
  (∃ π, PermOn 0 (2 * k) π ∧ ∀ i : Int, 0 ≤ i → i ≤ 2 * k → s i = (cont img row (col - k + π i), π i)) ∧
    SortedOn s 0 (2 * k)

theorem perm_range (n : Nat) (π : Equiv.Perm Int) (hπ : PermOn 0 ((n : Int) - 1) π) :
    ((List.range n).map fun i : Nat => (π i).toNat).Perm (List.range n) := by
  have hm : ∀ i : Nat, i < n → 0 ≤ π i ∧ π i < n := fun i hi => by
    have := hπ.maps (x := (i : Int)) (by omega) (by omega)
    omega
  rw [List.perm_ext_iff_of_nodup]
  · intro x
    simp only [List.mem_map, List.mem_range]
    constructor
    · rintro ⟨i, hi, rfl⟩
      have := hm i hi
      omega
    · intro hx
      have hs : PermOn 0 ((n : Int) - 1) π.symm := fun y hy => by
        rw [Equiv.symm_apply_eq]; exact (hπ y hy).symm
      have := hs.maps (x := (x : Int)) (by omega) (by omega)
      refine ⟨(π.symm x).toNat, by omega, ?_⟩
      rw [Int.toNat_of_nonneg this.1, Equiv.apply_symm_apply, Int.toNat_natCast]
  · rw [List.nodup_map_iff_inj_on List.nodup_range]
    intro x hx y hy hxy
    rw [List.mem_range] at hx hy
    have h1 := hm x hx
    have h2 := hm y hy
    have : π x = π y := by omega
    exact_mod_cast π.injective this
  · exact List.nodup_range

theorem holds_isRank (img : Img K) (row k col : Nat) (s : Arr K) (h : Holds img row k col s) :
    IsRank (window img row col k) k (s k).1 := by
  obtain ⟨⟨π, hπ, hv⟩, hs⟩ := h
  have hL : ((List.range (2 * k + 1)).map fun i : Nat => (s i).1).Perm (window img row col k) := by
    have h1 := (perm_range (2 * k + 1) π (by
      intro x hx; exact hπ x (by push_cast at hx; omega))).map
      fun i : Nat => cont img row ((col : Int) - k + i)
    refine List.Perm.trans ?_ h1
    rw [List.map_map]
    refine List.Perm.of_eq (List.map_congr_left ?_)
    intro i hi
    rw [List.mem_range] at hi
    rw [hv i (by omega) (by omega)]
    have := hπ.maps (x := (i : Int)) (by omega) (by omega)
    simp only [Function.comp]
    rw [Int.toNat_of_nonneg this.1]
  have hpw : ((List.range (2 * k + 1)).map fun i : Nat => (s i).1).Pairwise (· ≤ ·) := by
    rw [List.pairwise_iff_getElem]
    intro i j hi hj hij
    simp only [List.length_map, List.length_range] at hi hj
    simp only [List.getElem_map, List.getElem_range]
    exact hs i j (by omega) (by omega) (by omega)
  have he : sortL (window img row col k) = (List.range (2 * k + 1)).map fun i : Nat => (s i).1 :=
    List.Perm.eq_of_pairwise' (pairwise_sortL _) hpw ((perm_sortL _).trans hL.symm)
  have hlen : k < (sortL (window img row col k)).length := by rw [he]; simp; omega
  have := sortL_isRank (window img row col k) k hlen
  have e2 : (sortL (window img row col k))[k] = (s k).1 := by
    simp only [he, List.getElem_map, List.getElem_range]
  rwa [e2] at this

/-- Places move on by one; the oldest becomes the newest. -/
def cyc (m : Int) (hm : 0 ≤ m) : Equiv.Perm Int where
  toFun x := if x = 0 then m else if 1 ≤ x ∧ x ≤ m then x - 1 else x
  invFun x := if x = m then 0 else if 0 ≤ x ∧ x < m then x + 1 else x
  left_inv x := by dsimp only; split_ifs <;> omega
  right_inv x := by dsimp only; split_ifs <;> omega

theorem cyc_permOn (m : Int) (hm : 0 ≤ m) : PermOn 0 m (cyc m hm) := by
  intro x hx
  simp only [cyc, Equiv.coe_fn_mk]
  rw [if_neg (by omega), if_neg (by omega)]

theorem medInit_holds (img : Img K) (row start k : Nat) (hr : row < img.h)
    (hk : start + k < img.w) :
    ∃ a0 s0, medInit img row start k = some a0 ∧ quickSort (2 * k + 2) a0 0 (2 * k) = some s0 ∧
      Holds img row k start s0 := by
  have h1 : ∀ i < 2 * k + 1, (medFirst img row start k (i : Nat)).isSome := by
    intro i hi
    rw [medFirst_eq img row start k hr hk i (by omega) (by omega)]
    rfl
  obtain ⟨s0, π, e, hπ, hb, hs⟩ := quickSort_sorts (2 * k + 2)
    (fun i => ((medFirst img row start k i).getD 0, i)) 0 (2 * k) le_rfl (by omega)
  refine ⟨_, s0, by rw [medInit, if_pos h1], e, ⟨π, hπ, ?_⟩, hs⟩
  intro i h2 h3
  obtain ⟨h4, h5⟩ := hπ.maps h2 h3
  rw [hb]
  simp only [Function.comp]
  rw [medFirst_eq img row start k hr hk _ h4 h5]
  rfl

theorem medRoll_holds (img : Img K) (row k col : Nat) (hr : row < img.h) (h1k : 1 ≤ k) (s : Arr K)
    (h : Holds img row k col s) :
    ∃ s', medRoll img row k s (col + 1) = some s' ∧ Holds img row k ((col + 1 : Nat) : Int) s' := by
  obtain ⟨⟨π, hπ, hv⟩, hs⟩ := h
  have hnext : (if col + 1 + k < img.w then img.rd row (col + 1 + k : Nat) else some 0)
      = some (cont img row ((col : Int) + 1 + k)) := by
    unfold cont
    by_cases c1 : col + 1 + k < img.w
    · rw [if_pos c1, if_neg (by omega), if_pos (by omega),
        rd_eq img (by omega) (by omega) (by omega) (by omega)]
      congr 2
    · rw [if_neg c1, if_neg (by omega), if_neg (by omega)]
  unfold medRoll
  rw [hnext]
  dsimp only
  -- the position that leaves
  have hsym : PermOn 0 (2 * k) π.symm := fun y hy => by
    rw [Equiv.symm_apply_eq]; exact (hπ y hy).symm
  obtain ⟨hi1, hi2⟩ := hsym.maps (x := 0) le_rfl (by omega)
  have hi0 : π (π.symm 0) = 0 := Equiv.apply_symm_apply ..
  generalize π.symm 0 = i0 at hi1 hi2 hi0
  have hneg : ∀ i, 0 ≤ i → i ≤ 2 * (k : Int) → ((s i).2 - 1 < 0 ↔ i = i0) := by
    intro i h1 h2
    obtain ⟨h3, h4⟩ := hπ.maps h1 h2
    rw [hv i h1 h2]
    constructor
    · intro h5
      exact π.injective (by rw [hi0]; dsimp only at h5; omega)
    · rintro rfl
      rw [hi0]; norm_num
  have hlast : (intRange 0 (2 * k)).foldl (fun l i => if (s i).2 - 1 < 0 then i else l) 0 = i0 := by
    refine intRange_foldl_inv (fun i l => i0 < i → l = i0) _ 0 (2 * k) (by omega) 0
      (fun h => by omega) ?_ (by omega)
    intro i l h1 h2 hP h3
    by_cases hc : (s i).2 - 1 < 0
    · simp only [if_pos hc]
      exact (hneg i h1 h2).1 hc
    · simp only [if_neg hc]
      have : i ≠ i0 := fun e => hc ((hneg i h1 h2).2 e)
      exact hP (by omega)
  rw [hlast]
  obtain ⟨b, ρ, e, hρ, hb, hso⟩ := bubble_sorts (2 * k + 2)
    (fun i => if (s i).2 - 1 < 0 then (cont img row ((col : Int) + 1 + k), (2 * k : Int))
      else ((s i).1, (s i).2 - 1)) i0 (2 * k + 1) hi1 (by omega) (by omega) (by omega) (by
      intro i j h1 h2 h3 h4 h5
      dsimp only
      rw [if_neg (fun h => h4 ((hneg i h1 (by omega)).1 h)),
        if_neg (fun h => h5 ((hneg j (by omega) (by omega)).1 h))]
      exact hs i j h1 h2 (by omega))
  refine ⟨b, e, ⟨(ρ.trans π).trans (cyc (2 * k) (by omega)), ?_, ?_⟩, ?_⟩
  · have : (2 * (k : Int) + 1) - 1 = 2 * k := by omega
    rw [this] at hρ
    exact (cyc_permOn _ _).trans (hπ.trans hρ)
  · intro i h1 h2
    have hρ' : 0 ≤ ρ i ∧ ρ i ≤ 2 * k := by
      have := hρ.maps (x := i) h1 (by omega)
      omega
    obtain ⟨h3, h4⟩ := hπ.maps hρ'.1 hρ'.2
    rw [hb]
    simp only [Function.comp, Equiv.trans_apply]
    by_cases hc : ρ i = i0
    · rw [if_pos ((hneg _ hρ'.1 hρ'.2).2 hc), hc, hi0]
      simp only [cyc, Equiv.coe_fn_mk, if_true]
      congr 2
      push_cast
      ring
    · have hne : π (ρ i) ≠ 0 := fun h => hc (π.injective (by rw [h, hi0]))
      rw [if_neg (fun h => hc ((hneg _ hρ'.1 hρ'.2).1 h)), hv _ hρ'.1 hρ'.2]
      simp only [cyc, Equiv.coe_fn_mk]
      rw [if_neg hne, if_pos (by omega)]
      congr 2
      push_cast
      ring
  · have : (2 * (k : Int) + 1) - 1 = 2 * k := by omega
    rw [this] at hso
    exact hso

/-! ### The filter -/

/-- **C44** (median).  On a row of a polar image the rolling filter returns without an invalid
access and gives for every column of its range the middle value of the window, for every content
of the image, if the radius is at least 1 and the first window ends inside the row. -/
theorem medRow_result_partial (img : Img K) (row start stop k : Nat) (hr : row < img.h)
    (h1k : 1 ≤ k) (hk : start + k < img.w) :
    ∃ out, medRow img row start stop k = some out ∧ out.length = stop - start - 1 + 1 ∧
      ∀ t (ht : t < out.length), IsRank (window img row (start + t) k) k out[t] := by
  obtain ⟨a0, s0, e1, e2, h0⟩ := medInit_holds img row start k hr hk
  unfold medRow
  rw [e1]
  dsimp only
  rw [e2]
  dsimp only
  have key : ∀ n : Nat, ∃ s out, ((List.range n).foldlM (fun (p : Arr K × List K) t =>
        (medRoll img row k p.1 (start + 1 + t)).map fun s => (s, p.2 ++ [(s k).1]))
        (s0, [(s0 k).1])) = some (s, out) ∧ Holds img row k ((start + n : Nat) : Int) s ∧
      out.length = n + 1 ∧
      ∀ t (ht : t < out.length), IsRank (window img row (start + t) k) k out[t] := by
    intro n
    induction n with
    | zero =>
      refine ⟨s0, [(s0 k).1], rfl, h0, rfl, ?_⟩
      intro t ht
      have : t = 0 := by simpa using ht
      subst this
      exact holds_isRank img row k start s0 h0
    | succ n ih =>
      obtain ⟨s, out, e, hh, hl, hv⟩ := ih
      obtain ⟨s', e', hh'⟩ := medRoll_holds img row k (start + n) hr h1k s hh
      rw [List.range_succ, List.foldlM_append, e]
      refine ⟨s', out ++ [(s' k).1], ?_, hh', by simp [hl], ?_⟩
      · have e3 : start + 1 + n = start + n + 1 := by omega
        simp [e3, e']
      · intro t ht
        rw [List.length_append, List.length_singleton] at ht
        by_cases hc : t < out.length
        · rw [List.getElem_append_left hc]
          exact hv t hc
        · have ht' : t = n + 1 := by omega
          subst ht'
          rw [List.getElem_append_right (by omega)]
          simp only [hl, Nat.sub_self, List.getElem_cons_zero]
          exact holds_isRank img row k _ s' hh'
  obtain ⟨s, out, e, -, hl, hv⟩ := key (stop - start - 1)
  rw [e]
  exact ⟨out, rfl, hl, hv⟩

/-- Where neither edge of the polar image is inside the window, the filtered value is the median
of the `2k + 1` pixels of the row around the column. -/
theorem window_inner (img : Img K) (row col k : Nat) (h1 : k ≤ col) (h2 : col + k < img.w) :
    window img row col k = (List.range (2 * k + 1)).map fun i => img.px row (col - k + i) := by
  refine List.map_congr_left ?_
  intro i hi
  rw [List.mem_range] at hi
  unfold cont
  rw [if_neg (by omega), if_pos (by omega)]
  congr 1
  omega

/-- Near the right edge it is not: zeros that are not in the image take part.  In the row
`-1, -2, -3, -4` the filtered value of the last column with radius 1 is the median of `-3, -4, 0`;
with radius 1 and the row `4, 3, 2, 1` that of `2, 1, 0`, which is the pixel itself. -/
theorem median_right_edge :
    medRow (K := ℚ) ⟨2, 4, fun _ c => (-1 : ℚ) - c⟩ 0 2 4 1 = some [-3, -3] ∧
    window (K := ℚ) ⟨2, 4, fun _ c => (-1 : ℚ) - c⟩ 0 3 1 = [-3, -4, 0] := by
  decide +kernel

/-- A first window that reaches beyond the row takes pixels of the next row, and in the last row
reads behind the allocation. -/
theorem median_out_of_bounds (img : Img K) (row start stop k : Nat) (hr : row + 1 = img.h)
    (hk : img.w ≤ start + k) (hw : 0 < img.w) : medRow img row start stop k = none := by
  have h : medInit img row start k = none := by
    unfold medInit
    rw [if_neg]
    intro hall
    have h1 := hall (2 * k) (by omega)
    unfold medFirst at h1
    dsimp only at h1
    rw [if_neg (by push_cast; omega)] at h1
    have h2 : img.rd row ((start : Int) + (((2 * k : Nat) : Int) - k)) = none := by
      unfold Img.rd
      rw [if_neg]
      rintro ⟨-, -, -, hc⟩
      have e : (img.h : Int) * img.w = row * img.w + img.w := by
        rw [← hr]; push_cast; ring
      rw [e] at hc
      push_cast at hc
      omega
    rw [h2] at h1
    exact absurd h1 (by simp)
  unfold medRow
  rw [h]

/-- Radius 0 (`rwidth = 0`): the arrays have one element and the second is read, as soon as the
window is moved. -/
theorem median_radius_zero (img : Img K) (row start stop : Nat) (hr : row < img.h)
    (hk : start < img.w) (h : start + 1 < stop) : medRow img row start stop 0 = none := by
  obtain ⟨a0, s0, e1, e2, ⟨⟨π, hπ, hv⟩, -⟩⟩ := medInit_holds img row start 0 hr hk
  unfold medRow
  rw [e1]
  dsimp only
  rw [e2]
  dsimp only
  have hroll : medRoll img row 0 s0 (start + 1) = none := by
    unfold medRoll
    have hz : π 0 = 0 := by
      have := hπ.maps (x := 0) le_rfl (by simp)
      omega
    have hnext : ∃ v, (if start + 1 + 0 < img.w then img.rd row (start + 1 + 0 : Nat) else some 0)
        = some v := by
      split_ifs with c
      · exact ⟨_, rd_eq img (by omega) (by omega) (by omega) (by omega)⟩
      · exact ⟨0, rfl⟩
    obtain ⟨v, hv'⟩ := hnext
    rw [hv']
    dsimp only
    have hr0 : (intRange 0 (2 * ((0 : Nat) : Int))) = [0] := by decide
    rw [hr0]
    simp only [List.foldl_cons, List.foldl_nil]
    have : (if (s0 0).2 - 1 < 0 then (0 : Int) else 0) = 0 := by split_ifs <;> rfl
    rw [this]
    exact bubble_one _ _
  obtain ⟨n, hn⟩ : ∃ n, stop - start - 1 = n + 1 := ⟨stop - start - 2, by omega⟩
  rw [hn, List.range_succ_eq_map, List.foldlM_cons]
  simp [hroll]

end

/-- The hypotheses of `medRow_result_partial` on an example, with the result. -/
example : medRow (K := ℚ) ⟨4, 6, fun r c => ((5 * r + 3 * c) % 7 : Nat)⟩ 1 0 2 2 = some [4, 4] ∧
    window (K := ℚ) ⟨4, 6, fun r c => ((5 * r + 3 * c) % 7 : Nat)⟩ 1 1 2 = [4, 5, 1, 4, 0] := by
  decide +kernel

end Tomopy.Ring
