import Verif.Ray.Safety
import Mathlib.Algebra.Order.BigOperators.Group.List

/-!
# C30: order of the crossings, chord length, and the pixel charged for each segment
-/

set_option linter.unusedSectionVars false

namespace Tomopy.Ray

variable {K : Type*} [Field K] [LinearOrder K] [IsStrictOrderedRing K] [FloorRing K]

/-! ## Specification -/

/-- The ray: the line with direction `(cs, sn)` at signed distance `yi` from the origin (for a
unit direction). -/
def OnRay (yi sn cs : K) (P : K × K) : Prop := P.2 * cs - P.1 * sn = yi * (sn * sn + cs * cs)

/-- The points of the list are visited in the order of the direction `(dx, dy)`. -/
def OrderedAlong (dx dy : K) (l : List (K × K)) : Prop :=
  l.Pairwise fun P Q => 0 ≤ (Q.1 - P.1) * dx + (Q.2 - P.2) * dy

/-- `v` is at least `1/100` inside the range covered by `r` unit pixels centred at zero. -/
def Margin (r : Nat) (v : K) : Prop := -(r : K) / 2 + 1 / 100 ≤ v ∧ v ≤ (r : K) / 2 - 1 / 100

/-- The grid crossings that are to be kept: points of the ray on a horizontal grid line whose
abscissa is inside the image with the margin, or on a vertical line with the ordinate inside. -/
def IsCrossing (rx rz : Nat) (yi sn cs : K) (P : K × K) : Prop :=
  OnRay yi sn cs P ∧
    ((sn ≠ 0 ∧ Margin rx P.1 ∧ ∃ n ≤ rz, P.2 = grid rz n) ∨
     (cs ≠ 0 ∧ Margin rz P.2 ∧ ∃ n ≤ rx, P.1 = grid rx n))

/-- A Euclidean norm on `K × K` (for `ℝ` this is `sqrt (a*a + b*b)`). -/
def IsHyp (hyp : K → K → K) : Prop := ∀ a b, 0 ≤ hyp a b ∧ hyp a b * hyp a b = a * a + b * b

/-- The quadrant flag agrees with the sign of the slope. -/
def FlagOk (q : Int) (sn cs : K) : Prop := (q = 0 → sn * cs ≤ 0) ∧ (q ≠ 0 → 0 ≤ sn * cs)

/-! ## Which points are kept -/

theorem inside_margin {r : Nat} {v : K} : inside r v = true ↔ Margin r v := by
  rw [inside_iff, grid_zero, grid_self]; rfl

theorem onRay_src (xi yi sn cs : K) :
    OnRay yi sn cs (srcx xi yi sn cs, srcy xi yi sn cs) := by
  simp only [OnRay, srcx, srcy]; ring

theorem aPoint_iff {rx rz n : Nat} {yi sn cs : K} {P : K × K} (hr : 0 < rx + rz) :
    aPoint rx rz (coordx rz (rayX rx rz) yi sn cs) n = some P ↔
      OnRay yi sn cs P ∧ sn ≠ 0 ∧ Margin rx P.1 ∧ P.2 = grid rz n := by
  rw [aPoint_some, inside_margin]
  have hX := rayX_ne (K := K) hr
  have hsrc := onRay_src (rayX rx rz) yi sn cs
  constructor
  · rintro ⟨h1, h2, h3⟩
    obtain ⟨h4, _, h5⟩ := coordx_some h1
    refine ⟨?_, h4, h2, h3⟩
    simp only [OnRay] at hsrc ⊢
    rw [h3]
    linear_combination hsrc - h5
  · rintro ⟨h1, h2, h3, h4⟩
    refine ⟨?_, h3, h4⟩
    have hne : 2 * rayX rx rz * sn ≠ 0 := mul_ne_zero (mul_ne_zero two_ne_zero hX) h2
    simp only [coordx, islope, divF, src_sub_det_x, src_sub_det_y, if_neg hne, Option.map_some,
      Option.some.injEq]
    rw [← h4]
    simp only [OnRay] at hsrc h1
    have : 2 * rayX rx rz * cs / (2 * rayX rx rz * sn) = cs / sn := by field_simp
    rw [this]
    field_simp
    linear_combination h1 - hsrc

theorem bPoint_iff {rx rz n : Nat} {yi sn cs : K} {P : K × K} (hr : 0 < rx + rz) :
    bPoint rx rz (coordy rx (rayX rx rz) yi sn cs) n = some P ↔
      OnRay yi sn cs P ∧ cs ≠ 0 ∧ Margin rz P.2 ∧ P.1 = grid rx n := by
  rw [bPoint_some, inside_margin]
  have hX := rayX_ne (K := K) hr
  have hsrc := onRay_src (rayX rx rz) yi sn cs
  constructor
  · rintro ⟨h1, h2, h3⟩
    obtain ⟨h4, _, h5⟩ := coordy_some h1
    refine ⟨?_, h4, h2, h3⟩
    simp only [OnRay] at hsrc ⊢
    rw [h3]
    linear_combination hsrc - h5
  · rintro ⟨h1, h2, h3, h4⟩
    refine ⟨?_, h3, h4⟩
    have hne : 2 * rayX rx rz * cs ≠ 0 := mul_ne_zero (mul_ne_zero two_ne_zero hX) h2
    simp only [coordy, slope, divF, src_sub_det_x, src_sub_det_y, if_neg hne, Option.map_some,
      Option.some.injEq]
    rw [← h4]
    simp only [OnRay] at hsrc h1
    have : 2 * rayX rx rz * sn / (2 * rayX rx rz * cs) = sn / cs := by field_simp
    rw [this]
    field_simp
    linear_combination hsrc - h1

/-- **C30 (membership).** The merged list holds exactly the grid crossings of the ray inside
the image (with the margin of `trim_coords`). -/
theorem mem_crossings {q : Int} {rx rz : Nat} {yi sn cs : K} {P : K × K} (hr : 0 < rx + rz) :
    P ∈ crossings q rx rz yi sn cs ↔ IsCrossing rx rz yi sn cs P := by
  rw [(crossings_perm q rx rz yi sn cs).mem_iff, List.mem_append, aList, bList,
    List.mem_filterMap, List.mem_filterMap]
  simp only [List.mem_range, aPoint_iff hr, bPoint_iff hr, IsCrossing]
  constructor
  · rintro (⟨n, hn, h1, h2, h3, h4⟩ | ⟨n, hn, h1, h2, h3, h4⟩)
    · exact ⟨h1, Or.inl ⟨h2, h3, n, by omega, h4⟩⟩
    · exact ⟨h1, Or.inr ⟨h2, h3, n, by omega, h4⟩⟩
  · rintro ⟨h1, ⟨h2, h3, n, hn, h4⟩ | ⟨h2, h3, n, hn, h4⟩⟩
    · exact Or.inl ⟨n, by omega, h1, h2, h3, h4⟩
    · exact Or.inr ⟨n, by omega, h1, h2, h3, h4⟩

theorem rx_pos_of_mem {q : Int} {rx rz : Nat} {yi sn cs : K} {P : K × K}
    (h : P ∈ crossings q rx rz yi sn cs) : 0 < rx + rz := by
  by_contra h0
  obtain ⟨rfl, rfl⟩ : rx = 0 ∧ rz = 0 := by omega
  have := crossings_le 0 0 yi sn cs
  have hl := (crossings_perm q 0 0 yi sn cs).length_eq
  rw [List.length_append] at hl
  have : (crossings q 0 0 yi sn cs).length = 0 := by omega
  rw [List.length_eq_zero_iff] at this
  rw [this] at h
  simp at h

theorem onRay_crossings {q : Int} {rx rz : Nat} {yi sn cs : K} {P : K × K}
    (h : P ∈ crossings q rx rz yi sn cs) : OnRay yi sn cs P :=
  ((mem_crossings (rx_pos_of_mem h)).mp h).1

theorem onRay_parallel {yi sn cs : K} {P Q : K × K} (hP : OnRay yi sn cs P) (hQ : OnRay yi sn cs Q) :
    (Q.1 - P.1) * sn = (Q.2 - P.2) * cs := by
  simp only [OnRay] at hP hQ
  linear_combination hP - hQ

/-! ## Order -/

theorem mergeX_nil_right (as : List (K × K)) : mergeX as [] = as := by
  cases as <;> simp [mergeX]

theorem mergeX_sorted (as bs : List (K × K)) (ha : as.Pairwise fun P Q => P.1 ≤ Q.1)
    (hb : bs.Pairwise fun P Q => P.1 ≤ Q.1) : (mergeX as bs).Pairwise fun P Q => P.1 ≤ Q.1 := by
  fun_induction mergeX as bs with
  | case1 bs => exact hb
  | case2 as _ => exact ha
  | case3 a as b bs h ih =>
    rw [List.pairwise_cons] at ha ⊢
    refine ⟨?_, ih ha.2 hb⟩
    intro P hP
    rw [(mergeX_perm _ _).mem_iff, List.mem_append, List.mem_cons] at hP
    rcases hP with hP | rfl | hP
    · exact ha.1 P hP
    · exact h.le
    · exact h.le.trans ((List.pairwise_cons.mp hb).1 P hP)
  | case4 a as b bs h ih =>
    rw [List.pairwise_cons] at hb ⊢
    refine ⟨?_, ih ha hb.2⟩
    intro P hP
    rw [(mergeX_perm _ _).mem_iff, List.mem_append, List.mem_cons] at hP
    rcases hP with (rfl | hP) | hP
    · exact not_lt.mp h
    · exact (not_lt.mp h).trans ((List.pairwise_cons.mp ha).1 P hP)
    · exact hb.1 P hP

theorem aList_slope {rx rz : Nat} {yi sn cs : K} :
    (aList rx rz yi sn cs).Pairwise fun P Q =>
      sn ≠ 0 ∧ P.2 < Q.2 ∧ (Q.1 - P.1) * sn = (Q.2 - P.2) * cs := by
  refine (pairwise_aList rx rz yi sn cs).imp_of_mem ?_
  intro P Q hP hQ h
  obtain ⟨n, _, hn⟩ := mem_aList hP
  have hsn : sn ≠ 0 := by
    rw [aPoint_some] at hn
    exact (coordx_some hn.1).1
  refine ⟨hsn, h, ?_⟩
  have h1 : P ∈ crossings 1 rx rz yi sn cs := by
    rw [(crossings_perm 1 rx rz yi sn cs).mem_iff]; simp [hP]
  have h2 : Q ∈ crossings 1 rx rz yi sn cs := by
    rw [(crossings_perm 1 rx rz yi sn cs).mem_iff]; simp [hQ]
  exact onRay_parallel (onRay_crossings h1) (onRay_crossings h2)

/-- With a correct quadrant flag the merged list is sorted by `x`. -/
theorem crossings_sorted_x {q : Int} {rx rz : Nat} {yi sn cs : K} (hq : FlagOk q sn cs) :
    (crossings q rx rz yi sn cs).Pairwise fun P Q => P.1 ≤ Q.1 := by
  have hb : (bList rx rz yi sn cs).Pairwise fun P Q => P.1 ≤ Q.1 :=
    (pairwise_bList rx rz yi sn cs).imp fun h => h.le
  unfold crossings sortIntersections
  by_cases h0 : q = 0
  · rw [if_pos h0]
    refine mergeX_sorted _ _ ?_ hb
    rw [List.pairwise_reverse]
    refine (aList_slope (rx := rx) (rz := rz) (yi := yi) (sn := sn) (cs := cs)).imp ?_
    rintro P Q ⟨hsn, hlt, hl⟩
    have hs2 : 0 < sn * sn := mul_self_pos.mpr hsn
    have : (Q.1 - P.1) * (sn * sn) ≤ 0 := by
      have e : (Q.1 - P.1) * (sn * sn) = (Q.2 - P.2) * (sn * cs) := by linear_combination sn * hl
      rw [e]
      exact mul_nonpos_of_nonneg_of_nonpos (by linarith) (hq.1 h0)
    by_contra hc
    have : 0 < (Q.1 - P.1) * (sn * sn) := mul_pos (by linarith [not_le.mp hc]) hs2
    linarith
  · rw [if_neg h0]
    refine mergeX_sorted _ _ ?_ hb
    refine (aList_slope (rx := rx) (rz := rz) (yi := yi) (sn := sn) (cs := cs)).imp ?_
    rintro P Q ⟨hsn, hlt, hl⟩
    have hs2 : 0 < sn * sn := mul_self_pos.mpr hsn
    have : 0 ≤ (Q.1 - P.1) * (sn * sn) := by
      have e : (Q.1 - P.1) * (sn * sn) = (Q.2 - P.2) * (sn * cs) := by linear_combination sn * hl
      rw [e]
      exact mul_nonneg (by linarith) (hq.2 h0)
    by_contra hc
    have : (Q.1 - P.1) * (sn * sn) < 0 := mul_neg_of_neg_of_pos (by linarith [not_le.mp hc]) hs2
    linarith

theorem OrderedAlong.of_imp {R : K × K → K × K → Prop} {dx dy : K} {l : List (K × K)}
    (h : l.Pairwise R) (hi : ∀ P ∈ l, ∀ Q ∈ l, R P Q → 0 ≤ (Q.1 - P.1) * dx + (Q.2 - P.2) * dy) :
    OrderedAlong dx dy l :=
  h.imp_of_mem fun {P Q} hP hQ hr => hi P hP Q hQ hr

/-- **C30 (order).** With a quadrant flag that agrees with the slope, the merged list is
ordered along the ray, in the direction `(cs, sn)` or in the opposite one. -/
theorem crossings_ordered (q : Int) (rx rz : Nat) (yi sn cs : K) (hq : FlagOk q sn cs) :
    OrderedAlong cs sn (crossings q rx rz yi sn cs) ∨
      OrderedAlong (-cs) (-sn) (crossings q rx rz yi sn cs) := by
  have hpar : ∀ P ∈ crossings q rx rz yi sn cs, ∀ Q ∈ crossings q rx rz yi sn cs,
      (Q.1 - P.1) * sn = (Q.2 - P.2) * cs := fun P hP Q hQ =>
    onRay_parallel (onRay_crossings hP) (onRay_crossings hQ)
  rcases lt_trichotomy cs 0 with hc | hc | hc
  · right
    refine OrderedAlong.of_imp (crossings_sorted_x hq) ?_
    intro P hP Q hQ h
    have hl := hpar P hP Q hQ
    have e : ((Q.1 - P.1) * -cs + (Q.2 - P.2) * -sn) * -cs
        = (Q.1 - P.1) * (cs * cs + sn * sn) := by linear_combination -sn * hl
    by_contra hneg
    have h1 : ((Q.1 - P.1) * -cs + (Q.2 - P.2) * -sn) * -cs < 0 :=
      mul_neg_of_neg_of_pos (not_le.mp hneg) (by linarith)
    have h2 : 0 ≤ (Q.1 - P.1) * (cs * cs + sn * sn) :=
      mul_nonneg (by linarith) (add_nonneg (mul_self_nonneg _) (mul_self_nonneg _))
    linarith
  · -- only crossings with horizontal lines
    have hbn : bList rx rz yi sn cs = [] := filterMap_nil_of (fun n => bPoint_none_of_cs hc) _
    have hy := pairwise_aList rx rz yi sn cs
    rcases lt_or_ge sn 0 with hs | hs <;> by_cases h0 : q = 0 <;>
      simp only [crossings, sortIntersections, hbn, mergeX_nil_right, h0, if_true, if_false]
    · left
      refine OrderedAlong.of_imp (List.pairwise_reverse.mpr hy) ?_
      intro P _ Q _ h
      rw [hc, mul_zero, zero_add]
      exact mul_nonneg_of_nonpos_of_nonpos (by linarith) hs.le
    · right
      refine OrderedAlong.of_imp hy ?_
      intro P _ Q _ h
      rw [hc, neg_zero, mul_zero, zero_add]
      exact mul_nonneg (by linarith) (by linarith)
    · right
      refine OrderedAlong.of_imp (List.pairwise_reverse.mpr hy) ?_
      intro P _ Q _ h
      rw [hc, neg_zero, mul_zero, zero_add]
      exact mul_nonneg_of_nonpos_of_nonpos (by linarith) (by linarith)
    · left
      refine OrderedAlong.of_imp hy ?_
      intro P _ Q _ h
      rw [hc, mul_zero, zero_add]
      exact mul_nonneg (by linarith) hs
  · left
    refine OrderedAlong.of_imp (crossings_sorted_x hq) ?_
    intro P hP Q hQ h
    have hl := hpar P hP Q hQ
    have e : ((Q.1 - P.1) * cs + (Q.2 - P.2) * sn) * cs
        = (Q.1 - P.1) * (cs * cs + sn * sn) := by linear_combination -sn * hl
    by_contra hneg
    have h1 : ((Q.1 - P.1) * cs + (Q.2 - P.2) * sn) * cs < 0 :=
      mul_neg_of_neg_of_pos (not_le.mp hneg) hc
    have h2 : 0 ≤ (Q.1 - P.1) * (cs * cs + sn * sn) :=
      mul_nonneg (by linarith) (add_nonneg (mul_self_nonneg _) (mul_self_nonneg _))
    linarith

/-! ## Chord length -/

theorem hyp_zero {hyp : K → K → K} (hh : IsHyp hyp) : hyp 0 0 = 0 := by
  have := (hh 0 0).2
  simpa using this

theorem hyp_eq_zero {hyp : K → K → K} (hh : IsHyp hyp) {a b : K} (h : hyp a b = 0) :
    a = 0 ∧ b = 0 := by
  have h1 := (hh a b).2
  rw [h, mul_zero] at h1
  have ha := mul_self_nonneg a
  have hb := mul_self_nonneg b
  exact ⟨mul_self_eq_zero.mp (by linarith), mul_self_eq_zero.mp (by linarith)⟩

theorem hyp_add {hyp : K → K → K} (hh : IsHyp hyp) {a b c d : K} (hpar : a * d = b * c)
    (hdir : 0 ≤ a * c + b * d) : hyp a b + hyp c d = hyp (a + c) (b + d) := by
  obtain ⟨h1, h1'⟩ := hh a b
  obtain ⟨h2, h2'⟩ := hh c d
  obtain ⟨h3, h3'⟩ := hh (a + c) (b + d)
  have hprod : hyp a b * hyp c d = a * c + b * d := by
    have hsq : (hyp a b * hyp c d) * (hyp a b * hyp c d) = (a * c + b * d) * (a * c + b * d) := by
      have : (hyp a b * hyp c d) * (hyp a b * hyp c d)
          = (hyp a b * hyp a b) * (hyp c d * hyp c d) := by ring
      rw [this, h1', h2']
      linear_combination (a * d - b * c) * hpar
    exact (mul_self_inj_of_nonneg (mul_nonneg h1 h2) hdir).mp hsq
  refine (mul_self_inj_of_nonneg (add_nonneg h1 h2) h3).mp ?_
  rw [h3']
  linear_combination h1' + h2' + 2 * hprod

theorem dir_mul {a b c d dx dy : K} (h1 : a * dy = b * dx) (h2 : c * dy = d * dx)
    (hn : ¬(dx = 0 ∧ dy = 0)) (h3 : 0 ≤ a * dx + b * dy) (h4 : 0 ≤ c * dx + d * dy) :
    a * d = b * c ∧ 0 ≤ a * c + b * d := by
  have hpos : 0 < dx * dx + dy * dy := by
    rcases lt_or_eq_of_le (add_nonneg (mul_self_nonneg dx) (mul_self_nonneg dy)) with h | h
    · exact h
    · exfalso
      apply hn
      have ha := mul_self_nonneg dx
      have hb := mul_self_nonneg dy
      exact ⟨mul_self_eq_zero.mp (by linarith), mul_self_eq_zero.mp (by linarith)⟩
  constructor
  · have : (a * d - b * c) * (dx * dx + dy * dy) = 0 := by
      linear_combination (d * dy + c * dx) * h1 - (a * dx + b * dy) * h2
    rcases mul_eq_zero.mp this with h | h
    · linarith
    · linarith
  · have e : (a * c + b * d) * (dx * dx + dy * dy) = (a * dx + b * dy) * (c * dx + d * dy) := by
      linear_combination (c * dy - d * dx) * h1
    by_contra hneg
    have := mul_neg_of_neg_of_pos (not_le.mp hneg) hpos
    have := mul_nonneg h3 h4
    linarith

theorem sum_calcDist {hyp : K → K → K} (hh : IsHyp hyp) (rx rz : Nat) {dx dy : K}
    (hn : ¬(dx = 0 ∧ dy = 0)) (l : List (K × K))
    (hord : OrderedAlong dx dy l)
    (hpar : ∀ P ∈ l, ∀ Q ∈ l, (Q.1 - P.1) * dy = (Q.2 - P.2) * dx) (P : K × K) (hP : l.head? = some P) :
    ((calcDist hyp rx rz l).map Prod.snd).sum =
      hyp ((l.getLastD P).1 - P.1) ((l.getLastD P).2 - P.2) := by
  fun_induction calcDist hyp rx rz l generalizing P with
  | case1 => simp at hP
  | case2 A => 
    simp only [List.head?_cons, Option.some.injEq] at hP
    subst hP
    simp [hyp_zero hh]
  | case3 A Q rest ih =>
    simp only [List.head?_cons, Option.some.injEq] at hP
    subst hP
    rw [List.map_cons, List.sum_cons,
      ih (List.pairwise_cons.mp hord).2
        (fun R hR S hS => hpar R (List.mem_cons_of_mem _ hR) S (List.mem_cons_of_mem _ hS)) Q rfl]
    have hlast : (A :: Q :: rest).getLastD A = (Q :: rest).getLastD Q := by
      simp [List.getLastD]
    rw [hlast]
    set L := (Q :: rest).getLastD Q with hL
    have hLmem : L ∈ Q :: rest := by
      rw [hL]
      simp [List.getLastD]
    have hQL : 0 ≤ (L.1 - Q.1) * dx + (L.2 - Q.2) * dy := by
      rcases List.mem_cons.mp hLmem with h | h
      · rw [h]; simp
      · exact (List.pairwise_cons.mp (List.pairwise_cons.mp hord).2).1 L h
    have hAQ : 0 ≤ (Q.1 - A.1) * dx + (Q.2 - A.2) * dy :=
      (List.pairwise_cons.mp hord).1 Q (by simp)
    obtain ⟨h1, h2⟩ := dir_mul (hpar A (by simp) Q (by simp))
      (hpar Q (by simp) L (List.mem_cons_of_mem _ hLmem)) hn hAQ hQL
    simp only
    rw [hyp_add hh h1 h2]
    congr 1 <;> ring

theorem dir_ne_of_mem {q : Int} {rx rz : Nat} {yi sn cs : K} {P : K × K}
    (h : P ∈ crossings q rx rz yi sn cs) : ¬(cs = 0 ∧ sn = 0) := by
  rintro ⟨rfl, rfl⟩
  rcases ((mem_crossings (rx_pos_of_mem h)).mp h).2 with ⟨h, _⟩ | ⟨h, _⟩ <;> exact h rfl

/-- **C30 (chord).** The segment lengths are non-negative and add up to the distance between
the first and the last crossing. -/
theorem segments_sum (hyp : K → K → K) (hh : IsHyp hyp) (q : Int) (rx rz : Nat) (yi sn cs : K)
    (hq : FlagOk q sn cs) (first last : K × K)
    (hf : (crossings q rx rz yi sn cs).head? = some first)
    (hl : (crossings q rx rz yi sn cs).getLast? = some last) :
    ∃ segs, trace hyp (capsRecon rx rz) q rx rz yi sn cs = some segs ∧
      (∀ e ∈ segs, 0 ≤ e.2) ∧
      (segs.map Prod.snd).sum = hyp (last.1 - first.1) (last.2 - first.2) := by
  have hle := crossings_le rx rz yi sn cs
  rw [trace_eq, if_pos (by simp only [capsRecon]; omega)]
  refine ⟨_, rfl, ?_, ?_⟩
  · intro e he
    obtain ⟨_, P, Q, _, _, rfl⟩ := mem_calcDist he
    exact (hh _ _).1
  · change ((calcDist hyp rx rz (crossings q rx rz yi sn cs)).map Prod.snd).sum = _
    have hmem : first ∈ crossings q rx rz yi sn cs := List.mem_of_mem_head? (by simp [hf])
    have hnd := dir_ne_of_mem hmem
    have hpar : ∀ P ∈ crossings q rx rz yi sn cs, ∀ Q ∈ crossings q rx rz yi sn cs,
        (Q.1 - P.1) * sn = (Q.2 - P.2) * cs := fun P hP Q hQ =>
      onRay_parallel (onRay_crossings hP) (onRay_crossings hQ)
    have hld : (crossings q rx rz yi sn cs).getLastD first = last := by
      rw [List.getLastD_eq_getLast?, hl]; rfl
    rcases crossings_ordered q rx rz yi sn cs hq with ho | ho
    · rw [sum_calcDist hh rx rz hnd _ ho hpar first hf, hld]
    · rw [sum_calcDist hh rx rz (dx := -cs) (dy := -sn) (by simpa using hnd) _ ho
        (fun P hP Q hQ => by linear_combination -(hpar P hP Q hQ)) first hf, hld]

/-! ## The pixel of a segment -/

/-- Neighbouring points of the crossing list. -/
theorem neighbours {q : Int} {rx rz : Nat} {yi sn cs : K} {l1 l2 : List (K × K)} {P Q : K × K}
    (hl : crossings q rx rz yi sn cs = l1 ++ P :: Q :: l2) :
    Kept rx rz P ∧ Kept rx rz Q ∧ Apart rx rz P Q := by
  have hap := crossings_apart q rx rz yi sn cs
  rw [hl, List.pairwise_append] at hap
  refine ⟨crossings_kept (q := q) (yi := yi) (sn := sn) (cs := cs) (by rw [hl]; simp),
    crossings_kept (q := q) (yi := yi) (sn := sn) (cs := cs) (by rw [hl]; simp), ?_⟩
  have := hap.2.1
  rw [List.pairwise_cons] at this
  exact this.1 Q (by simp)

/-- **C30 (pixels).** Each segment is charged to the pixel containing its mid point: the index
is `iy + ix * rz` for the pixel `(ix, iy)` of the image that contains it, and its length is the
distance of two consecutive crossings. -/
theorem segment_charged (hyp : K → K → K) (q : Int) (rx rz : Nat) (yi sn cs : K)
    (segs : List (Int × K)) (hs : trace hyp (capsRecon rx rz) q rx rz yi sn cs = some segs)
    (e : Int × K) (he : e ∈ segs) :
    ∃ P Q ix iy, [P, Q] <:+: crossings q rx rz yi sn cs ∧ ix < rx ∧ iy < rz ∧
      MidIn rx rz P Q ix iy ∧ e = (((iy + ix * rz : Nat) : Int), hyp (Q.1 - P.1) (Q.2 - P.2)) := by
  have hle := crossings_le rx rz yi sn cs
  rw [trace_eq, if_pos (by simp only [capsRecon]; omega)] at hs
  simp only [Option.some.injEq] at hs
  subst hs
  obtain ⟨l1, P, Q, l2, hl, rfl⟩ := mem_calcDist he
  obtain ⟨hP, hQ, hPQ⟩ := neighbours (q := q) (yi := yi) (sn := sn) (cs := cs) hl
  obtain ⟨ix, iy, hix, hiy, hm, hidx⟩ := segment_pixel hP hQ hPQ
  refine ⟨P, Q, ix, iy, ⟨l1, l2, ?_⟩, hix, hiy, hm, by rw [hidx]⟩
  rw [crossings, hl]
  simp

/-- A strict convex combination of two numbers of one pixel interval is no grid value. -/
theorem not_grid_between {r i n : Nat} {m1 v m2 : K} (h1 : grid r i ≤ m1) (h2 : m1 < grid r (i + 1))
    (h3 : grid r i ≤ m2) (h4 : m2 < grid r (i + 1)) (hv : (m1 < v ∧ v < m2) ∨ (m2 < v ∧ v < m1)) :
    v ≠ grid r n := by
  intro h
  have hlo : grid r i < v := by rcases hv with h | h <;> linarith [h.1]
  have hhi : v < grid r (i + 1) := by rcases hv with h | h <;> linarith [h.2]
  rw [h] at hlo hhi
  simp only [grid] at hlo hhi
  have h1 : (i : K) < n := by linarith
  have h2 : (n : K) < ((i + 1 : Nat) : K) := by linarith
  have h1' : i < n := by exact_mod_cast h1
  have h2' : n < i + 1 := by exact_mod_cast h2
  omega

/-- Moving strictly forward along the ray moves strictly in every coordinate in which the
direction is not zero. -/
theorem strict_coord {a b dx dy : K} (hpar : a * dy = b * dx) (ht : 0 < a * dx + b * dy)
    (hdx : dx ≠ 0) : 0 < a * dx := by
  have hpos : 0 < dx * dx := mul_self_pos.mpr hdx
  have e : (a * dx + b * dy) * (dx * dx) = a * dx * (dx * dx + dy * dy) := by
    linear_combination -(dx * dy) * hpar
  have h1 : 0 < a * dx * (dx * dx + dy * dy) := by rw [← e]; exact mul_pos ht hpos
  exact pos_of_mul_pos_left h1 (by linarith [mul_self_nonneg dy])

theorem calcDist_once {hyp : K → K → K} (hh : IsHyp hyp) {rx rz : Nat} {dx dy : K}
    (l : List (K × K)) (hord : OrderedAlong dx dy l)
    (hpar : ∀ P ∈ l, ∀ Q ∈ l, (Q.1 - P.1) * dy = (Q.2 - P.2) * dx)
    (hk : ∀ P ∈ l, Kept rx rz P) (hap : l.Pairwise (Apart rx rz))
    (hg : ∀ P ∈ l, (dx ≠ 0 ∧ ∃ n, P.1 = grid rx n) ∨ (dy ≠ 0 ∧ ∃ n, P.2 = grid rz n)) :
    (calcDist hyp rx rz l).Pairwise fun e f => e.1 = f.1 → e.2 = 0 ∨ f.2 = 0 := by
  fun_induction calcDist hyp rx rz l with
  | case1 => exact List.Pairwise.nil
  | case2 => exact List.Pairwise.nil
  | case3 P Q rest ih =>
    rw [List.pairwise_cons]
    refine ⟨?_, ih (List.pairwise_cons.mp hord).2
      (fun R hR S hS => hpar R (List.mem_cons_of_mem _ hR) S (List.mem_cons_of_mem _ hS))
      (fun R hR => hk R (List.mem_cons_of_mem _ hR)) (List.pairwise_cons.mp hap).2
      (fun R hR => hg R (List.mem_cons_of_mem _ hR))⟩
    intro f hf heq
    obtain ⟨l1, R, S, l2, hl, rfl⟩ := mem_calcDist hf
    simp only at heq ⊢
    by_contra hcon
    rw [not_or] at hcon
    obtain ⟨hne1, hne2⟩ := hcon
    have hRmem : R ∈ Q :: rest := by rw [hl]; simp
    have hSmem : S ∈ Q :: rest := by rw [hl]; simp
    have hRmem' := List.mem_cons_of_mem P hRmem
    have hSmem' := List.mem_cons_of_mem P hSmem
    have hPmem : P ∈ P :: Q :: rest := by simp
    have hQmem : Q ∈ P :: Q :: rest := by simp
    have hord2 := (List.pairwise_cons.mp hord).2
    have hap2 := (List.pairwise_cons.mp hap).2
    -- order along the ray
    have tPQ : 0 ≤ (Q.1 - P.1) * dx + (Q.2 - P.2) * dy := (List.pairwise_cons.mp hord).1 Q (by simp)
    have tQR : 0 ≤ (R.1 - Q.1) * dx + (R.2 - Q.2) * dy := by
      rcases List.mem_cons.mp hRmem with h | h
      · rw [h]; simp
      · exact (List.pairwise_cons.mp hord2).1 R h
    have hRS : Apart rx rz R S ∧ 0 ≤ (S.1 - R.1) * dx + (S.2 - R.2) * dy := by
      have h1 := hap2
      have h2 := hord2
      rw [hl, List.pairwise_append] at h1
      rw [hl, List.pairwise_append] at h2
      exact ⟨(List.pairwise_cons.mp h1.2.1).1 S (by simp), (List.pairwise_cons.mp h2.2.1).1 S (by simp)⟩
    have hdne : ¬(dx = 0 ∧ dy = 0) := by
      rintro ⟨h1, h2⟩
      rcases hg P hPmem with h | h
      · exact h.1 h1
      · exact h.1 h2
    have hdpos : 0 < dx * dx + dy * dy := by
      rcases lt_or_eq_of_le (add_nonneg (mul_self_nonneg dx) (mul_self_nonneg dy)) with h | h
      · exact h
      · exfalso
        have ha := mul_self_nonneg dx
        have hb := mul_self_nonneg dy
        exact hdne ⟨mul_self_eq_zero.mp (by linarith), mul_self_eq_zero.mp (by linarith)⟩
    -- a segment of non-zero length moves strictly forward
    have strict : ∀ a b : K, a * dy = b * dx → 0 ≤ a * dx + b * dy → hyp a b ≠ 0 →
        0 < a * dx + b * dy := by
      intro a b h1 h2 h3
      rcases lt_or_eq_of_le h2 with h | h
      · exact h
      · exfalso
        apply h3
        have ha : a * (dx * dx + dy * dy) = 0 := by linear_combination dy * h1 - dx * h
        have hb : b * (dx * dx + dy * dy) = 0 := by linear_combination -dx * h1 - dy * h
        have ha0 : a = 0 := by
          rcases mul_eq_zero.mp ha with h | h
          · exact h
          · linarith
        have hb0 : b = 0 := by
          rcases mul_eq_zero.mp hb with h | h
          · exact h
          · linarith
        rw [ha0, hb0, hyp_zero hh]
    have sPQ := strict _ _ (hpar P hPmem Q hQmem) tPQ hne1
    have sRS := strict _ _ (hpar R hRmem' S hSmem') hRS.2 hne2
    obtain ⟨ix, iy, hix, hiy, hm, hidx⟩ := segment_pixel (hk P hPmem) (hk Q hQmem)
      ((List.pairwise_cons.mp hap).1 Q (by simp))
    obtain ⟨jx, jy, hjx, hjy, hm', hjdx⟩ := segment_pixel (hk R hRmem') (hk S hSmem') hRS.1
    rw [hidx, hjdx] at heq
    have heqn : iy + ix * rz = jy + jx * rz := by exact_mod_cast heq
    have hmod : iy = jy := by
      have := congrArg (· % rz) heqn
      simpa [Nat.add_mul_mod_self_right, Nat.mod_eq_of_lt hiy, Nat.mod_eq_of_lt hjy] using this
    subst hmod
    have hrz : 0 < rz := by omega
    have hx : ix = jx := Nat.eq_of_mul_eq_mul_right hrz (by omega)
    subst hx
    -- Q is strictly between the two mid points
    have hpQM : ((Q.1 - (P.1 + Q.1) / 2)) * dy = ((Q.2 - (P.2 + Q.2) / 2)) * dx := by
      linear_combination (1 / 2) * hpar P hPmem Q hQmem
    have htQM : 0 < (Q.1 - (P.1 + Q.1) / 2) * dx + (Q.2 - (P.2 + Q.2) / 2) * dy := by
      have : (Q.1 - (P.1 + Q.1) / 2) * dx + (Q.2 - (P.2 + Q.2) / 2) * dy
          = ((Q.1 - P.1) * dx + (Q.2 - P.2) * dy) / 2 := by ring
      rw [this]; linarith
    have hpNQ : (((R.1 + S.1) / 2 - Q.1)) * dy = (((R.2 + S.2) / 2 - Q.2)) * dx := by
      linear_combination hpar Q hQmem R hRmem' + (1 / 2) * hpar R hRmem' S hSmem'
    have htNQ : 0 < ((R.1 + S.1) / 2 - Q.1) * dx + ((R.2 + S.2) / 2 - Q.2) * dy := by
      have : ((R.1 + S.1) / 2 - Q.1) * dx + ((R.2 + S.2) / 2 - Q.2) * dy
          = ((R.1 - Q.1) * dx + (R.2 - Q.2) * dy) + ((S.1 - R.1) * dx + (S.2 - R.2) * dy) / 2 := by
        ring
      rw [this]; linarith
    rcases hg Q hQmem with ⟨hdx, n, hn⟩ | ⟨hdy, n, hn⟩
    · have c1 := strict_coord hpQM htQM hdx
      have c2 := strict_coord hpNQ htNQ hdx
      refine not_grid_between (v := Q.1) hm.1 hm.2.1 hm'.1 hm'.2.1 ?_ hn
      rcases lt_or_gt_of_ne hdx with h | h
      · right
        have a1 : Q.1 - (P.1 + Q.1) / 2 < 0 := neg_of_mul_pos_left c1 h.le
        have a2 : (R.1 + S.1) / 2 - Q.1 < 0 := neg_of_mul_pos_left c2 h.le
        exact ⟨by linarith, by linarith⟩
      · left
        have a1 := pos_of_mul_pos_left c1 h.le
        have a2 := pos_of_mul_pos_left c2 h.le
        exact ⟨by linarith, by linarith⟩
    · have c1 := strict_coord (a := Q.2 - (P.2 + Q.2) / 2) (b := Q.1 - (P.1 + Q.1) / 2) hpQM.symm
        (by linarith) hdy
      have c2 := strict_coord (a := (R.2 + S.2) / 2 - Q.2) (b := (R.1 + S.1) / 2 - Q.1) hpNQ.symm
        (by linarith) hdy
      refine not_grid_between (v := Q.2) hm.2.2.1 hm.2.2.2 hm'.2.2.1 hm'.2.2.2 ?_ hn
      rcases lt_or_gt_of_ne hdy with h | h
      · right
        have a1 : Q.2 - (P.2 + Q.2) / 2 < 0 := neg_of_mul_pos_left c1 h.le
        have a2 : (R.2 + S.2) / 2 - Q.2 < 0 := neg_of_mul_pos_left c2 h.le
        exact ⟨by linarith, by linarith⟩
      · left
        have a1 := pos_of_mul_pos_left c1 h.le
        have a2 := pos_of_mul_pos_left c2 h.le
        exact ⟨by linarith, by linarith⟩

/-- **A ray crosses a pixel at most once**: two segments of a ray charged to the same pixel are
not both of positive length. -/
theorem trace_once (hyp : K → K → K) (hh : IsHyp hyp) (q : Int) (rx rz : Nat) (yi sn cs : K)
    (hq : FlagOk q sn cs) (segs : List (Int × K))
    (hs : trace hyp (capsRecon rx rz) q rx rz yi sn cs = some segs) :
    segs.Pairwise fun e f => e.1 = f.1 → e.2 = 0 ∨ f.2 = 0 := by
  have hle := crossings_le rx rz yi sn cs
  rw [trace_eq, if_pos (by simp only [capsRecon]; omega)] at hs
  simp only [Option.some.injEq] at hs
  subst hs
  have hpar : ∀ P ∈ crossings q rx rz yi sn cs, ∀ Q ∈ crossings q rx rz yi sn cs,
      (Q.1 - P.1) * sn = (Q.2 - P.2) * cs := fun P hP Q hQ =>
    onRay_parallel (onRay_crossings hP) (onRay_crossings hQ)
  have hg : ∀ P ∈ crossings q rx rz yi sn cs,
      (cs ≠ 0 ∧ ∃ n, P.1 = grid rx n) ∨ (sn ≠ 0 ∧ ∃ n, P.2 = grid rz n) := by
    intro P hP
    rcases ((mem_crossings (rx_pos_of_mem hP)).mp hP).2 with ⟨h, _, n, _, hn⟩ | ⟨h, _, n, _, hn⟩
    · exact Or.inr ⟨h, n, hn⟩
    · exact Or.inl ⟨h, n, hn⟩
  rcases crossings_ordered q rx rz yi sn cs hq with ho | ho
  · exact calcDist_once hh _ ho hpar (fun P hP => crossings_kept hP) (crossings_apart _ _ _ _ _ _) hg
  · refine calcDist_once hh _ ho (fun P hP Q hQ => ?_) (fun P hP => crossings_kept hP)
      (crossings_apart _ _ _ _ _ _) (fun P hP => ?_)
    · linear_combination -(hpar P hP Q hQ)
    · simpa using hg P hP

/-- The hypotheses of the ordering theorems hold for an oblique ray that meets five grid lines;
its crossings in order. -/
example : FlagOk (K := ℚ) 1 (3/5) (4/5) ∧
    crossings (K := ℚ) 1 3 2 (1/4) (3/5) (4/5) =
      [(-3/2, -13/16), (-1/2, -1/16), (-5/12, 0), (1/2, 11/16), (11/12, 1)] := by
  refine ⟨⟨fun h => absurd h (by decide), fun _ => by norm_num⟩, ?_⟩
  decide +kernel

/-- A wrong flag gives an unordered list, so `FlagOk` is needed. -/
example : ¬ OrderedAlong (K := ℚ) (4/5) (3/5) (crossings 0 3 2 (1/4) (3/5) (4/5)) ∧
    ¬ OrderedAlong (K := ℚ) (-4/5) (-3/5) (crossings 0 3 2 (1/4) (3/5) (4/5)) := by
  unfold OrderedAlong
  constructor <;> decide +kernel

end Tomopy.Ray
