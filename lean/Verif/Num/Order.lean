import Mathlib.Data.List.Sort
import Mathlib.Algebra.Order.Field.Basic
import Mathlib.Algebra.Order.BigOperators.Group.List
import Mathlib.Algebra.BigOperators.Ring.List
import Mathlib.Tactic.Linarith
import Mathlib.Tactic.FieldSimp
import Mathlib.Tactic.Ring

/-! Means, order statistics and medians, with specifications that do not mention sorting. -/
set_option linter.unusedSectionVars false

namespace Tomopy.Num

variable {K : Type} [LinearOrder K]

/-- Sorted copy (numpy `np.sort` as in misc/corr.py:335 `np.median`, C `qsort`/`quicksort` as in
libtomo/misc/utils.c; any correct sorting routine has this result). -/
def sortL (l : List K) : List K := l.insertionSort (· ≤ ·)

/-- Specification: `v` is the `k`-th smallest (from 0) of `l`. -/
def IsRank (l : List K) (k : Nat) (v : K) : Prop :=
  l.countP (fun x => decide (x < v)) ≤ k ∧ k < l.countP (fun x => decide (x ≤ v))

/-- Specification: at least half of `l` is on either side of `v`. -/
def IsMedian (l : List K) (v : K) : Prop :=
  l.length ≤ 2 * l.countP (fun x => decide (x ≤ v)) ∧
  l.length ≤ 2 * l.countP (fun x => decide (v ≤ x))

theorem length_sortL (l : List K) : (sortL l).length = l.length := List.length_insertionSort ..

theorem perm_sortL (l : List K) : (sortL l).Perm l := List.perm_insertionSort ..

theorem mem_sortL {l : List K} {x : K} : x ∈ sortL l ↔ x ∈ l := (perm_sortL l).mem_iff

theorem pairwise_sortL (l : List K) : (sortL l).Pairwise (· ≤ ·) :=
  List.pairwise_insertionSort _ l

theorem sortL_mono (l : List K) {i j : Nat} (hij : i ≤ j) (hj : j < (sortL l).length) :
    (sortL l)[i]'(by omega) ≤ (sortL l)[j] := by
  rcases Nat.lt_or_eq_of_le hij with h | rfl
  · exact List.pairwise_iff_getElem.1 (pairwise_sortL l) i j (by omega) hj h
  · exact le_refl _

theorem sortL_perm {l l' : List K} (h : l.Perm l') : sortL l = sortL l' :=
  List.Perm.eq_of_pairwise' (pairwise_sortL l) (pairwise_sortL l')
    ((perm_sortL l).trans (h.trans (perm_sortL l').symm))

/-- counting in a sorted list: everything up to `k` counts -/
theorem countP_ge_of_prefix (l : List K) (p : K → Bool) (n : Nat) (hn : n ≤ l.length)
    (h : ∀ i (hi : i < n), p (l[i]'(by omega)) = true) : n ≤ l.countP p := by
  have e : l.countP p = (l.take n).countP p + (l.drop n).countP p := by
    rw [← List.countP_append, List.take_append_drop]
  have : (l.take n).countP p = (l.take n).length := by
    rw [List.countP_eq_length]
    intro a ha
    obtain ⟨i, hi, rfl⟩ := List.mem_iff_getElem.1 ha
    rw [List.getElem_take]
    exact h i (by simp at hi; omega)
  rw [e, this, List.length_take]
  omega

theorem countP_le_of_suffix (l : List K) (p : K → Bool) (n : Nat)
    (h : ∀ i (hi : i < l.length), n ≤ i → p l[i] = false) : l.countP p ≤ n := by
  have e : l.countP p = (l.take n).countP p + (l.drop n).countP p := by
    rw [← List.countP_append, List.take_append_drop]
  have h2 : (l.drop n).countP p = 0 := by
    rw [List.countP_eq_zero]
    intro a ha
    obtain ⟨i, hi, rfl⟩ := List.mem_iff_getElem.1 ha
    rw [List.getElem_drop]
    have := h (n + i) (by simp at hi; omega) (by omega)
    simp [this]
  have h1 : (l.take n).countP p ≤ (l.take n).length := List.countP_le_length
  rw [e, h2]
  simp only [List.length_take] at h1
  omega

/-- element `k` of the sorted list is the `k`-th smallest -/
theorem sortL_isRank (l : List K) (k : Nat) (hk : k < (sortL l).length) :
    IsRank l k (sortL l)[k] := by
  constructor
  · rw [← (perm_sortL l).countP_eq]
    refine countP_le_of_suffix _ _ _ ?_
    intro i hi hki
    simpa using sortL_mono l hki hi
  · rw [← (perm_sortL l).countP_eq]
    refine countP_ge_of_prefix _ _ (k + 1) (by omega) ?_
    intro i hi
    simpa using sortL_mono l (by omega : i ≤ k) hk

/-- the rank determines the value -/
theorem IsRank.unique {l : List K} {k : Nat} {v w : K} (hv : IsRank l k v) (hw : IsRank l k w) :
    v = w := by
  have aux : ∀ {v w : K}, IsRank l k v → IsRank l k w → ¬ v < w := by
    intro v w hv hw h
    have : l.countP (fun x => decide (x ≤ v)) ≤ l.countP (fun x => decide (x < w)) := by
      apply List.countP_mono_left
      intro x _ hx
      simp only [decide_eq_true_eq] at hx ⊢
      exact lt_of_le_of_lt hx h
    have h1 := hv.2
    have h2 := hw.1
    omega
  exact le_antisymm (not_lt.1 (aux hw hv)) (not_lt.1 (aux hv hw))

theorem IsRank.mem {l : List K} {k : Nat} {v : K} (h : IsRank l k v) : v ∈ l := by
  have hk : k < (sortL l).length := by
    rw [length_sortL]
    exact lt_of_lt_of_le h.2 List.countP_le_length
  rw [h.unique (sortL_isRank l k hk), ← mem_sortL]
  exact List.getElem_mem hk

theorem IsRank.perm {l l' : List K} (hp : l.Perm l') {k : Nat} {v : K} (h : IsRank l k v) :
    IsRank l' k v := by
  unfold IsRank at *
  rwa [hp.countP_eq, hp.countP_eq] at h

/-- middle order statistic of a list of odd length is a median -/
theorem IsRank.isMedian {l : List K} {v : K} (h : IsRank l (l.length / 2) v) :
    IsMedian l v := by
  have e : l.countP (fun x => decide (x < v)) + l.countP (fun x => decide (v ≤ x)) = l.length := by
    have := List.length_eq_countP_add_countP (fun x => decide (x < v)) (l := l)
    rw [this]
    congr 1
    apply List.countP_congr
    intro x _
    simp
  have h1 := h.1
  have h2 := h.2
  constructor <;> omega

section Field
variable [Field K] [IsStrictOrderedRing K]

/-- `np.mean` of a non-empty list (prep/normalize.py:147); the mean of an empty list is NaN in
numpy and 0 here (callers assume non-empty stacks). -/
def mean (l : List K) : K := l.sum / l.length

/-- `np.median` (misc/corr.py:335, prep/normalize.py:150, 321): mean of the two middle elements
for even length; of an empty list it is NaN in numpy and 0 here. -/
def npMedian (l : List K) : K :=
  if l.length % 2 = 1 then (sortL l).getD (l.length / 2) 0
  else ((sortL l).getD (l.length / 2 - 1) 0 + (sortL l).getD (l.length / 2) 0) / 2

theorem npMedian_perm {l l' : List K} (h : l.Perm l') : npMedian l = npMedian l' := by
  unfold npMedian
  rw [h.length_eq, sortL_perm h]

theorem getD_sortL (l : List K) {k : Nat} (hk : k < l.length) :
    (sortL l).getD k 0 = (sortL l)[k]'(by rw [length_sortL]; exact hk) := by
  rw [List.getD_eq_getElem?_getD, List.getElem?_eq_getElem (by rw [length_sortL]; exact hk)]
  rfl

/-- numpy's median is between the two middle order statistics -/
theorem npMedian_between {l : List K} (hl : l ≠ []) :
    (sortL l).getD ((l.length - 1) / 2) 0 ≤ npMedian l ∧
    npMedian l ≤ (sortL l).getD (l.length / 2) 0 := by
  have hpos : 0 < l.length := List.length_pos_iff.2 hl
  unfold npMedian
  split
  · have : (l.length - 1) / 2 = l.length / 2 := by omega
    rw [this]
    exact ⟨le_refl _, le_refl _⟩
  · have e : (l.length - 1) / 2 = l.length / 2 - 1 := by omega
    rw [e]
    have hle : (sortL l).getD (l.length / 2 - 1) 0 ≤ (sortL l).getD (l.length / 2) 0 := by
      rw [getD_sortL l (by omega), getD_sortL l (by omega)]
      exact sortL_mono l (by omega) _
    constructor <;> linarith

/-- numpy's median is a median -/
theorem npMedian_isMedian {l : List K} (hl : l ≠ []) : IsMedian l (npMedian l) := by
  have hpos : 0 < l.length := List.length_pos_iff.2 hl
  obtain ⟨h1, h2⟩ := npMedian_between hl
  rw [getD_sortL l (by omega)] at h1 h2
  constructor
  · rw [← (perm_sortL l).countP_eq]
    have : (l.length - 1) / 2 + 1 ≤ (sortL l).countP (fun x => decide (x ≤ npMedian l)) := by
      refine countP_ge_of_prefix _ _ _ (by rw [length_sortL]; omega) ?_
      intro i hi
      simp only [decide_eq_true_eq]
      exact le_trans (sortL_mono l (by omega : i ≤ (l.length - 1) / 2)
        (by rw [length_sortL]; omega)) h1
    omega
  · have e : l.countP (fun x => decide (x < npMedian l))
        + l.countP (fun x => decide (npMedian l ≤ x)) = l.length := by
      rw [List.length_eq_countP_add_countP (fun x => decide (x < npMedian l)) (l := l)]
      congr 1
      apply List.countP_congr
      intro x _
      simp
    have : l.countP (fun x => decide (x < npMedian l)) ≤ l.length / 2 := by
      rw [← (perm_sortL l).countP_eq]
      refine countP_le_of_suffix _ _ _ ?_
      intro i hi hki
      simp only [decide_eq_false_iff_not, not_lt]
      exact le_trans h2 (sortL_mono l hki hi)
    omega

/-- Specification of numpy's median: mean of the two middle order statistics (equal for odd
length). -/
def IsNpMedian (l : List K) (v : K) : Prop :=
  ∃ a b, IsRank l ((l.length - 1) / 2) a ∧ IsRank l (l.length / 2) b ∧ v = (a + b) / 2

theorem npMedian_spec {l : List K} (hl : l ≠ []) : IsNpMedian l (npMedian l) := by
  have hpos : 0 < l.length := List.length_pos_iff.2 hl
  have h1 : (l.length - 1) / 2 < (sortL l).length := by rw [length_sortL]; omega
  have h2 : l.length / 2 < (sortL l).length := by rw [length_sortL]; omega
  refine ⟨_, _, sortL_isRank l _ h1, sortL_isRank l _ h2, ?_⟩
  unfold npMedian
  split
  · have e : (l.length - 1) / 2 = l.length / 2 := by omega
    rw [getD_sortL l (by omega)]
    simp only [e]
    ring
  · have e : (l.length - 1) / 2 = l.length / 2 - 1 := by omega
    rw [getD_sortL l (by omega), getD_sortL l (by omega)]
    simp only [e]

theorem IsNpMedian.unique {l : List K} {v w : K} (hv : IsNpMedian l v) (hw : IsNpMedian l w) :
    v = w := by
  obtain ⟨a, b, ha, hb, rfl⟩ := hv
  obtain ⟨a', b', ha', hb', rfl⟩ := hw
  rw [ha.unique ha', hb.unique hb']

theorem npMedian_ge {l : List K} (hl : l ≠ []) {a : K} (h : ∀ x ∈ l, a ≤ x) :
    a ≤ npMedian l := by
  have hpos : 0 < l.length := List.length_pos_iff.2 hl
  refine le_trans ?_ (npMedian_between hl).1
  rw [getD_sortL l (by omega)]
  exact h _ (mem_sortL.1 (List.getElem_mem _))

theorem npMedian_le {l : List K} (hl : l ≠ []) {b : K} (h : ∀ x ∈ l, x ≤ b) :
    npMedian l ≤ b := by
  have hpos : 0 < l.length := List.length_pos_iff.2 hl
  refine le_trans (npMedian_between hl).2 ?_
  rw [getD_sortL l (by omega)]
  exact h _ (mem_sortL.1 (List.getElem_mem _))

/-- the defining property of the mean -/
theorem mean_mul {l : List K} (hl : l ≠ []) : mean l * l.length = l.sum := by
  unfold mean
  have : (l.length : K) ≠ 0 := by
    have := List.length_pos_iff.2 hl
    exact_mod_cast (by omega : l.length ≠ 0)
  field_simp

theorem mean_ge {l : List K} (hl : l ≠ []) {a : K} (h : ∀ x ∈ l, a ≤ x) : a ≤ mean l := by
  have hpos : (0 : K) < l.length := by
    exact_mod_cast List.length_pos_iff.2 hl
  have := List.card_nsmul_le_sum l a h
  unfold mean
  rw [le_div_iff₀ hpos]
  simpa [nsmul_eq_mul, mul_comm] using this

theorem mean_le {l : List K} (hl : l ≠ []) {b : K} (h : ∀ x ∈ l, x ≤ b) : mean l ≤ b := by
  have hpos : (0 : K) < l.length := by
    exact_mod_cast List.length_pos_iff.2 hl
  have := List.sum_le_card_nsmul l b h
  unfold mean
  rw [div_le_iff₀ hpos]
  simpa [nsmul_eq_mul, mul_comm] using this

theorem mean_const {l : List K} (hl : l ≠ []) {a : K} (h : ∀ x ∈ l, x = a) : mean l = a :=
  le_antisymm (mean_le hl fun x hx => le_of_eq (h x hx))
    (mean_ge hl fun x hx => le_of_eq (h x hx).symm)

theorem mean_map_mul (l : List K) (c : K) : mean (l.map fun x => c * x) = c * mean l := by
  unfold mean
  rw [List.sum_map_mul_left, List.length_map, List.map_id']
  simp [mul_div_assoc]

end Field

end Tomopy.Num
