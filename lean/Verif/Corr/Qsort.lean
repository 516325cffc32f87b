import Verif.Corr.QsortModel
import Mathlib.Data.List.Sort
import Mathlib.Data.List.GetD

/-!
# The comparison functions of `qsort` (C168)
-/

set_option linter.unusedSectionVars false

namespace Tomopy.Corr
open Tomopy.Num

/-! ## Specification -/

/-- What the C standard demands of the comparison function for the elements of the array
(C17, 7.22.5): it defines a total ordering, i.e. exchanging the arguments exchanges the sign, and
"not greater" is transitive. -/
structure TotalOn {V : Type} (cmp : V → V → Int) (l : List V) : Prop where
  anti : ∀ a ∈ l, ∀ b ∈ l, (cmp a b < 0 ↔ 0 < cmp b a)
  trans : ∀ a ∈ l, ∀ b ∈ l, ∀ c ∈ l, cmp a b ≤ 0 → cmp b c ≤ 0 → cmp a c ≤ 0

/-- A `qsort` that does what the C standard demands: arrays on which the comparison function is a total
ordering are rearranged in ascending order.  Nothing is said about other arrays. -/
def Conforms {V : Type} (cmp : V → V → Int) (Q : List V → List V) : Prop :=
  ∀ l, TotalOn cmp l → (Q l).Perm l ∧ (Q l).Pairwise fun a b => cmp a b ≤ 0

section
variable {K : Type} [LinearOrder K]

theorem cmpF_some (a b : K) : cmpF (some a) (some b) = if a < b then -1 else if b < a then 1 else 0 := by
  unfold cmpF cmpF.ltF
  simp only [decide_eq_true_eq]

theorem cmpF_none_left (b : Option K) : cmpF none b = 0 := by
  cases b <;> simp [cmpF, cmpF.ltF]

theorem cmpF_none_right (a : Option K) : cmpF a none = 0 := by
  cases a <;> simp [cmpF, cmpF.ltF]

theorem cmpF_le (a b : K) : cmpF (some a) (some b) ≤ 0 ↔ a ≤ b := by
  rw [cmpF_some]
  rcases lt_trichotomy a b with h | h | h
  · simp [h, h.le]
  · simp [h]
  · simp [h, h.not_gt, h.not_ge]

theorem cmpF_neg (a b : K) : cmpF (some a) (some b) < 0 ↔ a < b := by
  rw [cmpF_some]
  rcases lt_trichotomy a b with h | h | h
  · simp [h]
  · simp [h]
  · simp [h, h.not_gt]

theorem cmpF_pos (a b : K) : 0 < cmpF (some a) (some b) ↔ b < a := by
  rw [← not_le, cmpF_le, not_le]

/-- **C168**: the comparison functions of floats are a total ordering of an array exactly if it holds no NaN
or all numbers in it are equal. -/
theorem cmpF_total_iff (l : List (Option K)) :
    TotalOn cmpF l ↔ none ∉ l ∨ ∀ a b : K, some a ∈ l → some b ∈ l → a = b := by
  constructor
  · intro h
    by_contra hn
    push Not at hn
    obtain ⟨hnan, a, b, ha, hb, hab⟩ := hn
    rcases lt_or_gt_of_ne hab with hlt | hlt
    · have := h.trans _ hb _ hnan _ ha (by rw [cmpF_none_right]) (by rw [cmpF_none_left])
      exact absurd ((cmpF_le b a).mp this) (not_le.mpr hlt)
    · have := h.trans _ ha _ hnan _ hb (by rw [cmpF_none_right]) (by rw [cmpF_none_left])
      exact absurd ((cmpF_le a b).mp this) (not_le.mpr hlt)
  · rintro (h | h)
    · have hs : ∀ x ∈ l, ∃ a, x = some a := by
        intro x hx
        cases x with
        | none => exact absurd hx h
        | some a => exact ⟨a, rfl⟩
      constructor
      · intro a ha b hb
        obtain ⟨a, rfl⟩ := hs a ha
        obtain ⟨b, rfl⟩ := hs b hb
        rw [cmpF_neg, cmpF_pos]
      · intro a ha b hb c hc
        obtain ⟨a, rfl⟩ := hs a ha
        obtain ⟨b, rfl⟩ := hs b hb
        obtain ⟨c, rfl⟩ := hs c hc
        rw [cmpF_le, cmpF_le, cmpF_le]
        exact le_trans
    · have h0 : ∀ a ∈ l, ∀ b ∈ l, cmpF a b = 0 := by
        intro a ha b hb
        cases a with
        | none => exact cmpF_none_left b
        | some a =>
          cases b with
          | none => exact cmpF_none_right _
          | some b => rw [h a b ha hb, cmpF_some]; simp
      exact ⟨fun a ha b hb => by rw [h0 a ha b hb, h0 b hb a ha],
        fun a ha b _ c hc _ _ => (h0 a ha c hc).le⟩

/-- **C168**: the comparison function of `unsigned short` always is a total ordering. -/
theorem cmpU_total (l : List Nat) : TotalOn cmpU l := by
  constructor
  · intro a _ b _
    unfold cmpU
    split <;> split <;> omega
  · intro a _ b _ c _
    unfold cmpU
    split <;> split <;> (repeat' split) <;> omega

/-- **C168**: on arrays without NaN, every conforming `qsort` gives the sorted array of the model. -/
theorem qsort_numbers {Q : List (Option K) → List (Option K)} (hQ : Conforms cmpF Q) (l : List K) :
    Q (l.map some) = (sortL l).map some := by
  obtain ⟨hp, hs⟩ := hQ (l.map some) ((cmpF_total_iff _).mpr (Or.inl (by simp)))
  obtain ⟨m, hm⟩ : ∃ m : List K, Q (l.map some) = m.map some := by
    have hall : ∀ x ∈ Q (l.map some), ∃ a, some a = x := by
      intro x hx
      obtain ⟨a, -, rfl⟩ := List.mem_map.mp (hp.mem_iff.mp hx)
      exact ⟨a, rfl⟩
    generalize Q (l.map some) = q at hall
    induction q with
    | nil => exact ⟨[], rfl⟩
    | cons x q ih =>
      obtain ⟨m, hm⟩ := ih fun y hy => hall y (List.mem_cons_of_mem _ hy)
      obtain ⟨a, ha⟩ := hall x (List.mem_cons_self ..)
      exact ⟨a :: m, by rw [List.map_cons, ha, ← hm]⟩
  rw [hm] at hp hs ⊢
  congr 1
  have hp' : m.Perm l := (List.map_perm_map_iff (Option.some_injective K)).mp hp
  rw [List.pairwise_map] at hs
  refine List.Perm.eq_of_pairwise (le := (· ≤ ·)) (fun a b _ _ => le_antisymm) ?_ ?_
    (hp'.trans (perm_sortL l).symm)
  · exact hs.imp fun h => (cmpF_le _ _).mp h
  · exact pairwise_sortL l

/-- **C168**: an array with NaN, of `2 m + 1` elements of which more than `m` are numbers, can be arranged in
two ways that a sorting routine comparing neighbours cannot tell from "ascending": in one the middle
element is NaN, in the other it is a number. -/
theorem qsort_nan_middle (l : List (Option K)) (m : Nat) (hl : l.length = 2 * m + 1) (hnan : none ∈ l)
    (hnum : m < (l.filter Option.isSome).length) :
    ∃ p q : List (Option K), p.Perm l ∧ q.Perm l ∧
      (∀ k, k + 1 < l.length → cmpF (p.getD k none) (p.getD (k + 1) none) ≤ 0) ∧
      (∀ k, k + 1 < l.length → cmpF (q.getD k none) (q.getD (k + 1) none) ≤ 0) ∧
      p[m]? = some none ∧ ∃ x, q[m]? = some (some x) := by
  -- the numbers in ascending order
  obtain ⟨ns, hns⟩ : ∃ ns : List K, l.filter Option.isSome = ns.map some := by
    refine ⟨l.filterMap id, ?_⟩
    clear hl hnan hnum
    induction l with
    | nil => rfl
    | cons x l ih => cases x <;> simp_all
  obtain ⟨z, hz⟩ : ∃ z, l.filter (fun x => !x.isSome) = List.replicate z none := by
    refine ⟨_, List.eq_replicate_of_mem fun b hb => ?_⟩
    have := (List.mem_filter.mp hb).2
    cases b <;> simp_all
  have hperm : ((sortL ns).map some ++ List.replicate z none).Perm l := by
    refine List.Perm.trans ?_ (List.filter_append_perm Option.isSome l)
    rw [hns, hz]
    exact ((perm_sortL ns).map some).append_right _
  have hzpos : 0 < z := by
    rcases Nat.eq_zero_or_pos z with h | h
    · rw [h] at hz
      have : none ∈ l.filter (fun x => !x.isSome) := List.mem_filter.mpr ⟨hnan, rfl⟩
      rw [hz] at this
      simp at this
    · exact h
  have hnl : m < ns.length := by rw [hns] at hnum; simpa using hnum
  have hlen := hperm.length_eq
  simp only [List.length_append, List.length_map, length_sortL, List.length_replicate] at hlen
  have hsorted : ∀ k, k + 1 < ns.length →
      cmpF (((sortL ns).map some).getD k none) (((sortL ns).map some).getD (k + 1) none) ≤ 0 := by
    intro k hk
    have h1 : k + 1 < (sortL ns).length := by rw [length_sortL]; exact hk
    have h2 : k < (sortL ns).length := by omega
    rw [List.getD_eq_getElem _ _ (by simpa using h2), List.getD_eq_getElem _ _ (by simpa using h1),
      List.getElem_map, List.getElem_map, cmpF_le]
    exact sortL_mono ns (by omega) h1
  refine ⟨((sortL ns).map some).take m ++ none :: (((sortL ns).map some).drop m ++
      List.replicate (z - 1) none), (sortL ns).map some ++ List.replicate z none, ?_, hperm, ?_, ?_, ?_, ?_⟩
  · refine List.Perm.trans ?_ hperm
    obtain ⟨z', rfl⟩ : ∃ z', z = z' + 1 := ⟨z - 1, by omega⟩
    conv_rhs => rw [← List.take_append_drop m ((sortL ns).map some), List.append_assoc]
    refine List.Perm.append_left _ ?_
    rw [Nat.add_sub_cancel, List.replicate_succ]
    exact List.perm_middle.symm
  · intro k hk
    generalize hs : (sortL ns).map some = s at *
    have hsl : s.length = ns.length := by rw [← hs]; simp [length_sortL]
    have hm : (s.take m).length = m := by rw [List.length_take]; omega
    rcases lt_trichotomy (k + 1) m with h | h | h
    · rw [List.getD_append _ _ _ _ (by omega), List.getD_append _ _ _ _ (by omega)]
      have := hsorted k (by omega)
      simpa [List.getD_eq_getElem?_getD, List.getElem?_take, h, show k < m by omega] using this
    · rw [List.getD_append_right _ _ _ (k + 1) (by omega), hm, h, Nat.sub_self, List.getD_cons_zero,
        cmpF_none_right]
    · rcases Nat.lt_or_ge m k with h' | h'
      · rw [List.getD_append_right _ _ _ _ (by omega), List.getD_append_right _ _ _ _ (by omega), hm,
          show k - m = (k - 1 - m) + 1 by omega, show k + 1 - m = (k - m) + 1 by omega,
          List.getD_cons_succ, List.getD_cons_succ]
        have hd : (s.drop m).length = ns.length - m := by rw [List.length_drop, hsl]
        rcases Nat.lt_or_ge (k - m) (ns.length - m) with h2 | h2
        · rw [List.getD_append _ _ _ _ (by omega), List.getD_append _ _ _ _ (by omega)]
          have := hsorted (k - 1) (by omega)
          simpa [List.getD_eq_getElem?_getD, List.getElem?_drop, show m + (k - 1 - m) = k - 1 by omega,
            show m + (k - m) = k - 1 + 1 by omega] using this
        · rw [List.getD_append_right _ _ _ (k - m) (by omega)]
          rw [show ∀ j, (List.replicate (z - 1) (none : Option K)).getD j none = none from fun j => by
            simp [List.getD_eq_getElem?_getD, List.getElem?_replicate]; split <;> rfl, cmpF_none_right]
      · obtain rfl : k = m := by omega
        rw [List.getD_append_right _ _ _ k (by omega), hm, Nat.sub_self, List.getD_cons_zero,
          cmpF_none_left]
  · intro k hk
    generalize hs : (sortL ns).map some = s at *
    have hsl : s.length = ns.length := by rw [← hs]; simp [length_sortL]
    rcases Nat.lt_or_ge (k + 1) ns.length with h | h
    · rw [List.getD_append _ _ _ _ (by omega), List.getD_append _ _ _ _ (by omega)]
      exact hsorted k h
    · rw [List.getD_append_right _ _ _ (k + 1) (by omega)]
      rw [show ∀ j, (List.replicate z (none : Option K)).getD j none = none from fun j => by
        simp [List.getD_eq_getElem?_getD, List.getElem?_replicate]; split <;> rfl, cmpF_none_right]
  · rw [List.getElem?_append_right (by simp [length_sortL])]
    have : (((sortL ns).map some).take m).length = m := by
      rw [List.length_take, List.length_map, length_sortL]; omega
    rw [this, Nat.sub_self, List.getElem?_cons_zero]
  · refine ⟨(sortL ns)[m]'(by rw [length_sortL]; exact hnl), ?_⟩
    rw [List.getElem?_append_left (by simpa [length_sortL] using hnl)]
    simp [length_sortL, hnl]

/-- Insertion sort with a comparison function. -/
def isortC {V : Type} (cmp : V → V → Int) (l : List V) : List V :=
  l.insertionSort fun a b => cmp a b ≤ 0

/-- Merge sort with a comparison function. -/
def msortC {V : Type} (cmp : V → V → Int) (l : List V) : List V :=
  l.mergeSort fun a b => decide (cmp a b ≤ 0)

theorem cmpF_zero_of {l : List (Option K)} (h : ∀ a b : K, some a ∈ l → some b ∈ l → a = b) :
    ∀ a ∈ l, ∀ b ∈ l, cmpF a b ≤ 0 := by
  intro a ha b hb
  cases a with
  | none => exact (cmpF_none_left b).le
  | some a =>
    cases b with
    | none => exact (cmpF_none_right _).le
    | some b => rw [h a b ha hb, cmpF_some]; simp

theorem conforms_of {Q : List (Option K) → List (Option K)} (hp : ∀ l, (Q l).Perm l)
    (hs : ∀ l : List K, (Q (l.map some)).Pairwise fun a b => cmpF a b ≤ 0) : Conforms cmpF Q := by
  intro l hl
  refine ⟨hp l, ?_⟩
  rcases (cmpF_total_iff l).mp hl with h | h
  · have : l = (l.filterMap id).map some := by
      clear hl
      induction l with
      | nil => rfl
      | cons x l ih =>
        cases x with
        | none => simp at h
        | some a =>
          have := ih fun hh => h (List.mem_cons_of_mem _ hh)
          simpa using this
    rw [this]
    exact hs _
  · rw [List.pairwise_iff_forall_sublist]
    intro a b hab
    exact cmpF_zero_of h a ((hp l).mem_iff.mp (hab.subset (by simp))) b
      ((hp l).mem_iff.mp (hab.subset (by simp)))

/-- Insertion sort is a conforming `qsort`. -/
theorem isortC_conforms : Conforms (cmpF (K := K)) (isortC cmpF) := by
  refine conforms_of (fun l => List.perm_insertionSort ..) fun l => ?_
  unfold isortC
  rw [← List.map_insertionSort (r := (· ≤ ·)) (s := fun a b : Option K => cmpF a b ≤ 0) some l
    (fun a _ b _ => (cmpF_le a b).symm), List.pairwise_map]
  exact (List.pairwise_insertionSort (· ≤ ·) l).imp fun h => (cmpF_le _ _).mpr h

/-- Merge sort is a conforming `qsort`. -/
theorem msortC_conforms : Conforms (cmpF (K := K)) (msortC cmpF) := by
  refine conforms_of (fun l => List.mergeSort_perm ..) fun l => ?_
  unfold msortC
  rw [← List.map_mergeSort (r := fun a b : K => decide (a ≤ b)) (fun a _ b _ => by simp only [cmpF_le]),
    List.pairwise_map]
  exact (List.pairwise_mergeSort (le := fun a b : K => decide (a ≤ b))
    (fun a b c => by simpa using le_trans) (fun a b => by simpa using le_total a b) l).imp
    fun h => (cmpF_le _ _).mpr (by simpa using h)

end

/-! ## The median filters -/

section
variable {K : Type} [LinearOrder K] [Field K] [IsStrictOrderedRing K]

theorem vecDecideQ_numbers {Q : List (Option K) → List (Option K)} (hQ : Conforms cmpF Q) (n : Nat) (thr : K)
    (vs : List K) (x : K) :
    vecDecideQ Q (some 0) n (decide (thr = 0)) (farF thr) (vs.map some) (some x)
      = (vecDecide n thr (fun a b => |a - b|) vs x).map (Option.map some) := by
  unfold vecDecideQ vecDecide
  rw [List.length_map]
  by_cases h : n < vs.length
  · rw [if_pos h, if_pos h]; rfl
  · rw [if_neg h, if_neg h,
      show vs.map some ++ List.replicate (n - vs.length) (some (0 : K))
        = (vs ++ List.replicate (n - vs.length) 0).map some by simp, qsort_numbers hQ]
    have hg : ∀ (l : List K) (k : Nat), (l.map some).getD k (some 0) = some (l.getD k 0) := by
      intro l k
      simp only [List.getD_eq_getElem?_getD, List.getElem?_map]
      cases l[k]? <;> rfl
    simp only [hg, Option.map_some, farF, decide_eq_true_eq]
    split
    · rfl
    · split <;> rfl

/-- **C168**: on data without NaN the result of the median filters does not depend on the C library: any
conforming `qsort` gives what the model computes. -/
theorem median_any_qsort {Q : List (Option K) → List (Option K)} (hQ : Conforms cmpF Q)
    (powf : ℚ → Nat → ℚ) (r dX dY dZ : Nat) (thr : K) (f : Nat → K) (i j k : Nat) :
    medMainFQ Q powf r dX dY dZ thr (fun n => some (f n)) i j k
      = (medMainF powf r dX dY dZ thr f i j k).map (Option.map some) := by
  have hc : ∀ l : List Nat, l.map (fun n => some (f n)) = (l.map f).map some := fun l => by
    rw [List.map_map]; rfl
  unfold medMainFQ medMainF med2F med3F
  split
  · rw [hc]; exact vecDecideQ_numbers hQ ..
  · rw [hc]; exact vecDecideQ_numbers hQ ..

/-- **C168**: the same for 16-bit data, without any condition. -/
theorem median_any_qsort_uint16 {Q : List Nat → List Nat} (hQ : Conforms cmpU Q)
    (powf : ℚ → Nat → ℚ) (r dX dY dZ : Nat) (thr : K) (f : Nat → Nat) (i j k : Nat) :
    medMainUQ Q powf r dX dY dZ thr f i j k = medMainU powf r dX dY dZ thr f i j k := by
  have hle : ∀ a b : Nat, cmpU a b ≤ 0 → a ≤ b := by
    intro a b
    unfold cmpU
    split
    · omega
    · split <;> omega
  have hq : ∀ l, Q l = sortL l := by
    intro l
    obtain ⟨hp, hs⟩ := hQ l (cmpU_total l)
    exact List.Perm.eq_of_pairwise (le := (· ≤ ·)) (fun a b _ _ => le_antisymm)
      (hs.imp fun h => hle _ _ h) (pairwise_sortL l) (hp.trans (perm_sortL l).symm)
  have hv : ∀ n vs x, vecDecideQ Q 0 n (decide (thr = 0)) (fun a b => decide (difU (K := K) a b ≥ thr)) vs x
      = vecDecide n thr difU vs x := by
    intro n vs x
    unfold vecDecideQ vecDecide
    simp only [hq, decide_eq_true_eq]
  unfold medMainUQ medMainU med2U med3U
  split
  · exact hv ..
  · exact hv ..

/-- **C168**: with a threshold (`remove_outlier3d`), a NaN pixel is never replaced, whatever `qsort` does. -/
theorem outlier_keeps_nan (Q : List (Option K) → List (Option K)) (powf : ℚ → Nat → ℚ)
    (r dX dY dZ : Nat) {thr : K} (hthr : thr ≠ 0) (inp : Nat → Option K) {i j k : Nat}
    (hn : inp (if dZ = 0 then j * dX + i else idx3 dX dY i j k) = none) {v : Option (Option K)}
    (h : medMainFQ Q powf r dX dY dZ thr inp i j k = some v) : v = none := by
  unfold medMainFQ at h
  split at h <;> rename_i hz
  all_goals
    first | rw [if_pos hz] at hn | rw [if_neg hz] at hn
    unfold vecDecideQ at h
    split at h
    · exact absurd h (by simp)
    · simp only [hn, farF, hthr, decide_false, Bool.false_eq_true, if_false, Option.some.injEq] at h
      exact h.symm

end

/-- **C168, refuted with NaN**: on a window with one NaN two conforming `qsort`s give different medians, the
one NaN and the other a number. -/
theorem median_nan_wrong :
    ∃ Q Q' : List (Option ℚ) → List (Option ℚ), Conforms cmpF Q ∧ Conforms cmpF Q' ∧
      ∃ inp : Nat → Option ℚ,
        medMainFQ Q (fun x n => x ^ n) 1 3 3 0 0 inp 1 1 0 = some (some none) ∧
        ∃ x, medMainFQ Q' (fun x n => x ^ n) 1 3 3 0 0 inp 1 1 0 = some (some (some x)) := by
  refine ⟨isortC cmpF, msortC cmpF, isortC_conforms, msortC_conforms,
    fun n => if n = 4 then none else some (9 - n), ?_, 6, ?_⟩
  · decide +kernel
  · have hw : (windowIdx2 1 3 3 1 1).map (fun n : Nat => if n = 4 then none else some (9 - n : ℚ))
        = [some 9, some 6, some 3, some 8, none, some 2, some 7, some 4, some 1] := by decide +kernel
    have hs : (sizeTotal (fun x n => x ^ n) 1 2).toNat = 9 := by decide +kernel
    have hq : msortC cmpF ([some 9, some 6, some 3, some 8, none, some 2, some 7, some 4, some 1] :
        List (Option ℚ)) = [some 1, some 2, some 3, some 4, some 6, some 7, some 8, some 9, none] := by
      unfold msortC
      simp [List.mergeSort, List.MergeSort.Internal.splitInTwo]
      norm_num [List.merge, cmpF, cmpF.ltF]
    unfold medMainFQ
    rw [if_pos rfl, hw, hs]
    simp [vecDecideQ, hq]

/-! ## Examples -/

/-- A window on which the comparison function is a total ordering, and one on which it is not. -/
example : TotalOn cmpF [some 2, some (1 : ℚ), some 3] ∧ ¬ TotalOn cmpF [some 1, none, some (0 : ℚ)] := by
  constructor
  · exact (cmpF_total_iff _).mpr (Or.inl (by decide +kernel))
  · rw [cmpF_total_iff]
    intro h
    rcases h with h | h
    · exact h (by simp)
    · exact absurd (h 1 0 (by simp) (by simp)) (by decide +kernel)

/-- `qsort_numbers` with a concrete `qsort`. -/
example : isortC cmpF [some 2, some (1 : ℚ), some 3] = [some 1, some 2, some 3] := by decide +kernel

/-- The hypotheses of `qsort_nan_middle`. -/
example : ∃ l : List (Option ℚ), l.length = 2 * 1 + 1 ∧ none ∈ l ∧ 1 < (l.filter Option.isSome).length :=
  ⟨[some 1, none, some 0], rfl, by simp, by decide +kernel⟩

/-- `median_any_qsort`: a median of nine numbers in another order, with a `qsort` that conforms. -/
example : medMainFQ (isortC cmpF) (fun x n => x ^ n) 1 3 3 0 0 (fun n => some (9 - n : ℚ)) 1 1 0
    = some (some (some 5)) := by decide +kernel

/-- `outlier_keeps_nan`: a NaN among ones, with a threshold; nothing is stored. -/
example : medMainFQ (isortC cmpF) (fun x n => x ^ n) 1 3 3 0 (1 / 2)
    (fun n => if n = 4 then none else some (1 : ℚ)) 1 1 0 = some none := by decide +kernel

end Tomopy.Corr
