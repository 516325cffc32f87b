import Verif.Sym.StripeUnits
import Verif.Normalize.LogModel
import Mathlib.Data.Finset.Max
import Mathlib.Data.Finset.Prod

/-! C207: sorting-based stripe removal before or after `minus_log`. -/

set_option linter.unusedSectionVars false

namespace Tomopy.Sym
open Tomopy.Num Tomopy.Stripe

/-- `-log` from `m` on, continued by a falling line. -/
noncomputable def logFrom (m x : ℝ) : ℝ := if m ≤ x then -Real.log x else -Real.log m + (m - x)

theorem logFrom_anti {m : ℝ} (hm : 0 < m) : StrictAnti (logFrom m) := by
  intro x y h
  unfold logFrom
  by_cases hx : m ≤ x
  · rw [if_pos hx, if_pos (hx.trans h.le)]
    exact neg_lt_neg (Real.log_lt_log (hm.trans_le hx) h)
  · rw [if_neg hx]
    have hx := not_le.1 hx
    by_cases hy : m ≤ y
    · rw [if_pos hy]
      have := Real.log_le_log hm hy
      linarith
    · rw [if_neg hy]
      linarith

theorem least_pixel (nrow ncol : Nat) (X : Nat → Nat → ℝ) (h : ∀ t < nrow, ∀ i < ncol, 0 < X t i) :
    ∃ m : ℝ, 0 < m ∧ ∀ t < nrow, ∀ i < ncol, m ≤ X t i := by
  by_cases hn : 0 < nrow ∧ 0 < ncol
  · obtain ⟨p, hp, hmin⟩ := Finset.exists_min_image (Finset.range nrow ×ˢ Finset.range ncol) (fun p => X p.1 p.2)
      ⟨(0, 0), by simpa using hn⟩
    rw [Finset.mem_product, Finset.mem_range, Finset.mem_range] at hp
    exact ⟨X p.1 p.2, h _ hp.1 _ hp.2, fun t ht i hi =>
      hmin (t, i) (Finset.mem_product.2 ⟨Finset.mem_range.2 ht, Finset.mem_range.2 hi⟩)⟩
  · exact ⟨1, one_pos, fun t ht i hi => absurd ⟨by omega, by omega⟩ hn⟩

section
variable {K : Type} [LinearOrder K] [Field K] [IsStrictOrderedRing K] [FloorRing K]

/-- **C207** Every new value is a pixel of the sinogram, in one of the columns of the window (with the default
one-dimensional filter). -/
theorem rs_sort_selects (ag : Argsort K) (nrow ncol size : Nat) (hs : 1 ≤ size) (X : Nat → Nat → K) (t i : Nat)
    (ht : t < nrow) : ∃ t' < nrow, ∃ c ∈ windowCols ncol size i, rsSort ag nrow ncol size 1 X t i = X t' c := by
  obtain ⟨ρ, h1, _, h3⟩ := rs_sort_value ag (rsFilter nrow ncol size 1) nrow X
    (fun S S' hS i r hr => rsFilter_local nrow ncol size 1 S S' hS i r hr) i
  obtain ⟨_, _, e⟩ := h3 t ht
  have hm := (medianCols_isRank ncol size hs (sortedImage nrow X) i (ρ t)).mem
  obtain ⟨c, hc, hv⟩ := List.mem_map.1 hm
  obtain ⟨t', ht', e'⟩ := sortedImage_mem nrow X c (ρ t) (h1 t ht)
  refine ⟨t', ht', c, hc, ?_⟩
  unfold rsSort
  rw [e]
  simp only [rsFilter, if_true]
  rw [← hv, e']

end

/-- **C207** For positive data the sorting-based method with an odd window gives the same result before and after
`-log`, at every pixel that is unique in its column. -/
theorem rs_sort_minus_log_partial (ag ag' : Argsort ℝ) (nrow ncol size : Nat) (ho : size % 2 = 1) (X : Nat → Nat → ℝ)
    (hX : ∀ t < nrow, ∀ i < ncol, 0 < X t i) (t i : Nat) (ht : t < nrow) (hi : i < ncol) (hu : Unique nrow X t i) :
    rsSort ag' nrow ncol size 1 (fun t i => -Real.log (X t i)) t i = -Real.log (rsSort ag nrow ncol size 1 X t i) := by
  obtain ⟨m, hm, hle⟩ := least_pixel nrow ncol X hX
  have hin : ∀ t < nrow, ∀ i < ncol, logFrom m (X t i) = -Real.log (X t i) := fun t ht i hi => if_pos (hle t ht i hi)
  have hf := logFrom_anti hm
  have hu' : Unique nrow (fun t i => logFrom m (X t i)) t i := fun s hs h => hu s hs (hf.injective h)
  have e1 := rs_sort_columns_partial ag' ag' nrow ncol size 1 (fun t i => logFrom m (X t i))
    (fun t i => -Real.log (X t i)) (fun j hj => List.Perm.of_eq (List.map_congr_left fun s hs =>
      (hin s (List.mem_range.1 hs) j hj).symm)) i t t hi ht ht hu' (hin t ht i hi).symm
  obtain ⟨t', ht', c, hc, e⟩ := rs_sort_selects ag nrow ncol size (by omega) X t i ht
  rw [e1, rs_sort_log_partial ag ag' nrow ncol size ho X (logFrom m) hf i t ht hu, e,
    hin t' ht' c (windowCols_lt (by omega) hc)]

/-- **C207** The same in terms of `minus_log`: stripes removed before it or after it. -/
theorem minus_log_commutes_partial (ag ag' : Argsort ℝ) (nrow ncol size : Nat) (ho : size % 2 = 1)
    (arr : Nat → Nat → Nat → ℝ) (s : Nat) (hX : ∀ t < nrow, ∀ i < ncol, 0 < arr t s i) (t i : Nat) (ht : t < nrow)
    (hi : i < ncol) (hu : Unique nrow (fun t i => arr t s i) t i) (L : Nat → Nat → ℝ)
    (hL : ∀ t < nrow, ∀ i < ncol, Normalize.minusLog arr t s i = .fin (L t i)) :
    Normalize.minusLog (fun t s i => rsSort ag nrow ncol size 1 (fun t i => arr t s i) t i) t s i
      = .fin (rsSort ag' nrow ncol size 1 L t i) := by
  have hval : ∀ x : ℝ, 0 < x → Normalize.minusLogPix x = .fin (-Real.log x) := fun x hx => if_pos hx
  have hL' : ∀ t < nrow, ∀ i < ncol, L t i = -Real.log (arr t s i) := by
    intro t ht i hi
    have := hL t ht i hi
    unfold Normalize.minusLog at this
    rw [hval _ (hX t ht i hi)] at this
    exact (Normalize.LogVal.fin.inj this).symm
  obtain ⟨t', ht', c, hc, e⟩ := rs_sort_selects ag nrow ncol size (by omega) (fun t i => arr t s i) t i ht
  have hu' : Unique nrow (fun t i => -Real.log (arr t s i)) t i := fun s' hs' h =>
    hu s' hs' (Real.log_injOn_pos (hX s' hs' i hi) (hX t ht i hi) (neg_injective h))
  have e1 := rs_sort_columns_partial ag' ag' nrow ncol size 1 (fun t i => -Real.log (arr t s i)) L
    (fun j hj => List.Perm.of_eq (List.map_congr_left fun s' hs' => hL' s' (List.mem_range.1 hs') j hj)) i t t hi ht ht
    hu' (hL' t ht i hi)
  unfold Normalize.minusLog
  dsimp only
  rw [hval _ (by rw [e]; exact hX t' ht' c (windowCols_lt (by omega) hc)), e1,
    rs_sort_minus_log_partial ag ag' nrow ncol size ho (fun t i => arr t s i) hX t i ht hi hu]

/-- Two pixels of one projection, 1 and `e`. -/
noncomputable def expSino (_ i : Nat) : ℝ := Real.exp i

/-- **C207** With an even window the order of the two steps matters: pixel 1 becomes `-1` if the stripes are removed
first and 0 otherwise, with every sorting routine. -/
theorem rs_sort_minus_log_fails (ag ag' : Argsort ℝ) :
    -Real.log (rsSort ag 1 2 2 1 expSino 0 1) = -1 ∧
      rsSort ag' 1 2 2 1 (fun t i => -Real.log (expSino t i)) 0 1 = 0 := by
  have key : ∀ (ag : Argsort ℝ) (X : Nat → Nat → ℝ), rsSort ag 1 2 2 1 X 0 1 = max (X 0 0) (X 0 1) := by
    intro ag X
    obtain ⟨ρ, h1, _, h3⟩ := rs_sort_value ag (rsFilter 1 2 2 1) 1 X
      (fun S S' hS i r hr => rsFilter_local 1 2 2 1 S S' hS i r hr) 1
    obtain ⟨_, _, e⟩ := h3 0 (by omega)
    have h0 : ρ 0 = 0 := by have := h1 0 (by omega); omega
    unfold rsSort
    rw [e, h0]
    simp only [rsFilter, if_true]
    have hw : windowCols 2 2 1 = [0, 1] := by decide
    have hr := medianCols_isRank 2 2 (by omega) (sortedImage 1 X) 1 0
    rw [hw] at hr
    have hsi : ∀ j, sortedImage 1 X j 0 = X 0 j := by
      intro j
      obtain ⟨t', ht', e⟩ := sortedImage_mem 1 X j 0 (by omega)
      rw [e]
      congr 1
      omega
    simp only [List.map_cons, List.map_nil, hsi] at hr
    refine hr.unique ?_
    unfold IsRank
    simp only [List.countP_cons, List.countP_nil, decide_eq_true_eq, le_max_left, le_max_right, if_true, lt_max_iff,
      lt_irrefl, false_or, or_false]
    refine ⟨?_, by omega⟩
    split <;> split <;> first | omega | (exfalso; linarith)
  constructor
  · rw [key]
    unfold expSino
    rw [max_eq_right (Real.exp_le_exp.2 (by norm_num)), Real.log_exp]
    norm_num
  · rw [key]
    unfold expSino
    rw [Real.log_exp, Real.log_exp]
    norm_num

/-! Concrete cases. -/

example : (∀ t < 1, ∀ i < 2, 0 < expSino t i) ∧ Unique 1 expSino 0 1 ∧
    ∀ t < 1, ∀ i < 2, Normalize.minusLog (fun t _ i => expSino t i) t 0 i = .fin (-(i : ℝ)) := by
  refine ⟨fun _ _ i _ => Real.exp_pos _, fun s hs _ => by omega, fun t _ i _ => ?_⟩
  unfold Normalize.minusLog Normalize.minusLogPix expSino
  rw [if_pos (Real.exp_pos _), Real.log_exp]

end Tomopy.Sym
