import Verif.Sym.Order
import Verif.Sym.Units2d
import Verif.Stripe.VoProps
import Verif.Stripe.Filter

/-! C206: stripe removal of sinograms in other units. -/

set_option linter.unusedSectionVars false

namespace Tomopy.Sym
open Tomopy.Num Tomopy.Stripe

section Sorting
variable {K : Type} [LinearOrder K] [Field K] [IsStrictOrderedRing K]

theorem sortL_map {f : K → K} (hf : StrictMono f) (l : List K) : sortL (l.map f) = (sortL l).map f := by
  refine List.Perm.eq_of_pairwise' (pairwise_sortL _) ?_ ?_
  · rw [List.pairwise_map]
    exact (pairwise_sortL _).imp fun {x y} hxy => hf.monotone hxy
  · exact (perm_sortL _).trans ((perm_sortL _).map _).symm

theorem getD_map_lt {α : Type} (l : List α) (f : α → α) (d : α) {k : Nat} (hk : k < l.length) :
    (l.map f).getD k d = f (l.getD k d) := by
  rw [List.getD_eq_getElem _ _ (by simpa using hk), List.getD_eq_getElem _ _ hk, List.getElem_map]

theorem column_map (nrow : Nat) (X : Nat → Nat → K) (f : K → K) (i : Nat) :
    column nrow (fun t i => f (X t i)) i = (column nrow X i).map f := by
  unfold column
  rw [List.map_map]
  rfl

theorem sortedImage_map {f : K → K} (hf : StrictMono f) (nrow : Nat) (X : Nat → Nat → K) (i r : Nat) (hr : r < nrow) :
    sortedImage nrow (fun t i => f (X t i)) i r = f (sortedImage nrow X i r) := by
  unfold sortedImage
  rw [column_map, sortL_map hf, getD_map_lt _ _ _ (by rw [length_sortL]; simpa [column] using hr)]

theorem medianCols_map {f : K → K} (hf : StrictMono f ∨ (StrictAnti f ∧ size % 2 = 1)) (ncol : Nat) (hs : 1 ≤ size)
    (S : Nat → Nat → K) (i r : Nat) :
    medianCols ncol size (fun c r => f (S c r)) i r = f (medianCols ncol size S i r) := by
  have h := medianCols_isRank ncol size hs S i r
  have h' := medianCols_isRank ncol size hs (fun c r => f (S c r)) i r
  have e : (windowCols ncol size i).map (fun c => f (S c r)) = ((windowCols ncol size i).map fun c => S c r).map f := by
    rw [List.map_map]
    rfl
  rw [e] at h'
  rcases hf with hf | ⟨hf, ho⟩
  · exact h'.unique (isRank_mono hf h)
  · exact h'.unique (isRank_anti hf (by rw [List.length_map, length_windowCols]; omega) h)

theorem scipyMedian_map {f : K → K} (hf : StrictMono f) (h w size : Nat) (hs : 1 ≤ size)
    (S : Nat → Nat → K) (y x : Nat) :
    Corr.scipyMedian h w size (fun r c => f (S r c)) y x = f (Corr.scipyMedian h w size S y x) := by
  unfold Corr.scipyMedian
  rw [scipyWindow_map, sortL_map hf, getD_map_lt]
  rw [length_sortL, Corr.length_scipyWindow]
  have : 1 ≤ size * size := Nat.mul_pos hs hs
  omega

/-- **C206** Sorting-based stripe removal commutes with every strictly increasing change of the values, at every pixel
whose value is unique in its column. -/
theorem rs_sort_units_partial (ag ag' : Argsort K) (nrow ncol size dim : Nat) (hs : 1 ≤ size) (X : Nat → Nat → K)
    (f : K → K) (hf : StrictMono f) (i t : Nat) (hi : i < ncol) (ht : t < nrow) (hu : Unique nrow X t i) :
    rsSort ag' nrow ncol size dim (fun t i => f (X t i)) t i = f (rsSort ag nrow ncol size dim X t i) := by
  obtain ⟨ρ, h1, _, h3⟩ := rs_sort_value ag (rsFilter nrow ncol size dim) nrow X
    (fun S S' hS i r hr => rsFilter_local nrow ncol size dim S S' hS i r hr) i
  obtain ⟨ρ', h1', _, h3'⟩ := rs_sort_value ag' (rsFilter nrow ncol size dim) nrow (fun t i => f (X t i))
    (fun S S' hS i r hr => rsFilter_local nrow ncol size dim S S' hS i r hr) i
  obtain ⟨a1, _, a3⟩ := h3 t ht
  obtain ⟨b1, _, b3⟩ := h3' t ht
  unfold rsSort
  rw [a3, b3]
  have e1 := rank_unique nrow X t i ht hu (ρ t) a1
  have hu' : Unique nrow (fun t i => f (X t i)) t i := fun s hs h => hu s hs (hf.injective h)
  have e2 := rank_unique nrow _ t i ht hu' (ρ' t) b1
  rw [column_map, List.countP_map] at e2
  simp only [Function.comp_def, hf.lt_iff_lt] at e2
  rw [e2, ← e1, rsFilter_inside nrow ncol size dim (by omega) _ (fun i r => f (sortedImage nrow X i r))
    (fun j _ r hr => sortedImage_map hf nrow X j r hr) i _ (h1 t ht)]
  unfold rsFilter
  split
  · exact medianCols_map (Or.inl hf) ncol hs _ _ _
  · exact scipyMedian_map hf ncol nrow size hs _ _ _

theorem count_split (l : List K) (v : K) :
    l.length = l.countP (fun x => decide (x ≤ v)) + l.countP (fun x => decide (v < x)) := by
  have := List.length_eq_countP_add_countP (fun x => decide (x ≤ v)) (l := l)
  simpa only [decide_eq_true_eq, not_le] using this

theorem sortedImage_anti {f : K → K} (hf : StrictAnti f) (nrow : Nat) (X : Nat → Nat → K) (i r : Nat) (hr : r < nrow) :
    sortedImage nrow (fun t i => f (X t i)) i (nrow - 1 - r) = f (sortedImage nrow X i r) := by
  have hl : (column nrow X i).length = nrow := by simp [column]
  have rank : ∀ (X : Nat → Nat → K) (r : Nat), r < nrow → IsRank (column nrow X i) r (sortedImage nrow X i r) := by
    intro X r hr
    unfold sortedImage
    rw [getD_sortL _ (by simpa [column] using hr)]
    exact sortL_isRank _ _ _
  have h := rank X r hr
  refine (rank (fun t i => f (X t i)) (nrow - 1 - r) (by omega)).unique ?_
  rw [column_map]
  generalize sortedImage nrow X i r = v at h
  unfold IsRank at *
  simp only [List.countP_map, Function.comp_def, hf.lt_iff_gt, hf.le_iff_ge]
  have e1 := List.length_eq_countP_add_countP (fun x => decide (x < v)) (l := column nrow X i)
  have e2 := count_split (column nrow X i) v
  simp only [decide_eq_true_eq, not_lt] at e1
  omega

/-- **C206** With the default one-dimensional filter and an odd window it commutes with every strictly decreasing
change too: stripes can be removed before or after `-log`. -/
theorem rs_sort_log_partial (ag ag' : Argsort K) (nrow ncol size : Nat) (ho : size % 2 = 1) (X : Nat → Nat → K)
    (f : K → K) (hf : StrictAnti f) (i t : Nat) (ht : t < nrow) (hu : Unique nrow X t i) :
    rsSort ag' nrow ncol size 1 (fun t i => f (X t i)) t i = f (rsSort ag nrow ncol size 1 X t i) := by
  obtain ⟨ρ, h1, _, h3⟩ := rs_sort_value ag (rsFilter nrow ncol size 1) nrow X
    (fun S S' hS i r hr => rsFilter_local nrow ncol size 1 S S' hS i r hr) i
  obtain ⟨ρ', h1', _, h3'⟩ := rs_sort_value ag' (rsFilter nrow ncol size 1) nrow (fun t i => f (X t i))
    (fun S S' hS i r hr => rsFilter_local nrow ncol size 1 S S' hS i r hr) i
  obtain ⟨a1, _, a3⟩ := h3 t ht
  obtain ⟨b1, _, b3⟩ := h3' t ht
  unfold rsSort
  rw [a3, b3]
  have hr := h1 t ht
  have hr' := h1' t ht
  have hu' : Unique nrow (fun t i => f (X t i)) t i := fun s hs h => hu s hs (hf.injective h)
  have e2 := rank_unique nrow _ t i ht hu' (ρ' t) b1
  have b4 : IsRank (column nrow (fun t i => f (X t i)) i) (nrow - 1 - ρ t) (f (X t i)) := by
    have := sortedImage_anti hf nrow X i (ρ t) hr
    rw [(h3 t ht).2.1] at this
    rw [← this]
    unfold sortedImage
    rw [getD_sortL _ (by simp [column]; omega)]
    exact sortL_isRank _ _ _
  have e3 := rank_unique nrow _ t i ht hu' _ b4
  have e : ρ' t = nrow - 1 - ρ t := e2.trans e3.symm
  rw [e]
  simp only [rsFilter, if_true]
  rw [← medianCols_map (Or.inr ⟨hf, ho⟩) ncol (by omega)]
  unfold medianCols
  congr 2
  refine List.map_congr_left fun a _ => ?_
  exact sortedImage_anti hf nrow X _ (ρ t) hr

/-- **C206** Pixels of equal value in a column: in any case the pixels of a column and their new values are the same
pairs in the new unit, so that only pixels that were equal can exchange their new values. -/
theorem rs_sort_units_pairs (ag ag' : Argsort K) (nrow ncol size dim : Nat) (hs : 1 ≤ size) (X : Nat → Nat → K)
    (f : K → K) (hf : StrictMono f) (i : Nat) (hi : i < ncol) :
    ((List.range nrow).map fun t => (f (X t i), rsSort ag' nrow ncol size dim (fun t i => f (X t i)) t i)).Perm
      ((List.range nrow).map fun t => (f (X t i), f (rsSort ag nrow ncol size dim X t i))) := by
  have key : ∀ (ag : Argsort K) (X : Nat → Nat → K),
      ((List.range nrow).map fun t => (X t i, rsSort ag nrow ncol size dim X t i)).Perm
      ((List.range nrow).map fun r =>
        (sortedImage nrow X i r, rsFilter nrow ncol size dim (sortedImage nrow X) i r)) := by
    intro ag X
    obtain ⟨ρ, h1, h2, h3⟩ := rs_sort_value ag (rsFilter nrow ncol size dim) nrow X
      (fun S S' hS i r hr => rsFilter_local nrow ncol size dim S S' hS i r hr) i
    have := (map_reorders ⟨h1, h2⟩).map fun r =>
      (sortedImage nrow X i r, rsFilter nrow ncol size dim (sortedImage nrow X) i r)
    rw [List.map_map] at this
    refine List.Perm.trans (List.Perm.of_eq ?_) this
    refine List.map_congr_left fun t ht => ?_
    obtain ⟨_, e2, e3⟩ := h3 t (List.mem_range.1 ht)
    simp only [Function.comp, e2]
    unfold rsSort
    rw [e3]
  have h := (key ag X).map fun p : K × K => (f p.1, f p.2)
  rw [List.map_map, List.map_map] at h
  refine (key ag' fun t i => f (X t i)).trans (List.Perm.trans (List.Perm.of_eq ?_) h.symm)
  refine List.map_congr_left fun r hr => ?_
  have hr := List.mem_range.1 hr
  simp only [Function.comp]
  rw [sortedImage_map hf nrow X i r hr, rsFilter_inside nrow ncol size dim (by omega) _
    (fun i r => f (sortedImage nrow X i r)) (fun j _ r hr => sortedImage_map hf nrow X j r hr) i _ hr]
  congr 1
  unfold rsFilter
  split
  · exact medianCols_map (Or.inl hf) ncol hs _ _ _
  · exact scipyMedian_map hf ncol nrow size hs _ _ _

/-- One projection of two pixels, 0 and 1. -/
def stepSino (_ i : Nat) : ℚ := i

/-- **C206** With an even window the sign matters: the filter takes the upper of the two middle values. -/
theorem rs_sort_log_fails : Unique 1 stepSino 0 1 ∧ rsSort argsortUp 1 2 2 1 stepSino 0 1 = 1 ∧
    rsSort argsortUp 1 2 2 1 (fun t i => -stepSino t i) 0 1 = 0 := by
  refine ⟨fun s hs _ => by omega, ?_, ?_⟩ <;> decide +kernel

end Sorting

section Vo
variable {K : Type} [LinearOrder K] [Field K] [IsStrictOrderedRing K] [FloorRing K]

theorem scale_mono {c : K} (hc : 0 < c) : StrictMono fun x : K => c * x := fun _ _ h => mul_lt_mul_of_pos_left h hc

theorem trimmedMean_scale (nrow nd : Nat) (S : Nat → Nat → K) (c : K) (i : Nat) :
    trimmedMean nrow nd (fun i r => c * S i r) i = c * trimmedMean nrow nd S i := by
  unfold trimmedMean
  rw [← Finset.mul_sum, mul_div_assoc]

theorem ratio_scale {c : K} (hc : c ≠ 0) (a b : K) : ratioOrOne (c * a) (c * b) = ratioOrOne a b := by
  unfold ratioOrOne
  simp only [mul_eq_zero, hc, false_or]
  split
  · rfl
  · exact mul_div_mul_left a b hc

theorem listFact_scale (nrow ncol size : Nat) (hs : 1 ≤ size) (ratio : K) (X : Nat → Nat → K) (c : K) (hc : 0 < c) :
    listFact nrow ncol size ratio (fun t i => c * X t i) = listFact nrow ncol size ratio X := by
  have e : sortedImage nrow (fun t i => c * X t i) = fun i r => c * sortedImage nrow X i r := by
    funext i r
    exact sortedImage_scale nrow _ X i c hc (fun _ _ => rfl) r
  have e2 : medianCols ncol size (fun i r => c * sortedImage nrow X i r)
      = fun i r => c * medianCols ncol size (sortedImage nrow X) i r := by
    funext i r
    exact medianCols_map (f := fun x => c * x) (Or.inl (scale_mono hc)) ncol hs _ i r
  funext i
  unfold listFact
  dsimp only
  rw [e, e2, trimmedMean_scale, trimmedMean_scale, ratio_scale hc.ne']

theorem fillGaps_affine (nrow ncol : Nat) (mask : Nat → Bool) (Z : Nat → Nat → Option K) (a b : K) :
    fillGaps nrow ncol mask (fun t i => (Z t i).map fun x => a * x + b)
      = (fillGaps nrow ncol mask Z).map fun Y t i => (Y t i).map fun x => a * x + b := by
  unfold fillGaps
  split
  · rfl
  · simp only [Except.map]
    congr 1
    funext t i
    by_cases h : mask i = true
    · simp only [h, if_true]
      unfold gapValue
      dsimp only
      cases h1 : Z t (keptLeft mask i) <;> cases h2 : Z t (keptRight mask ncol i) <;>
        simp only [Option.map_none, Option.map_some]
      congr 1
      ring
    · simp only [h]
      rfl

/-- **C206** `remove_stripe_based_interpolation` of a sinogram in another unit is its result in that unit: the factors
and the marked columns are the same. -/
theorem interp_scale (nrow ncol : Nat) (snr : K) (size : Nat) (hs : 1 ≤ size) (ratio : K) (norm : Bool)
    (X : Nat → Nat → K) (c : K) (hc : 0 < c) :
    rsInterpolation nrow ncol snr size ratio norm (fun t i => c * X t i)
      = (rsInterpolation nrow ncol snr size ratio norm X).map fun Y t i => (Y t i).map fun x => c * x := by
  unfold rsInterpolation
  dsimp only
  rw [listFact_scale nrow ncol size hs ratio X c hc]
  cases detectStripe ncol (listFact nrow ncol size ratio X) snr with
  | error e => rfl
  | ok m =>
    dsimp only
    have h := fillGaps_affine nrow ncol (clearEdges ncol (dilate ncol m))
      (fun t i => normPixel norm (listFact nrow ncol size ratio X i) (X t i)) c 0
    simp only [add_zero] at h
    rw [← h]
    congr 1
    funext t i
    unfold normPixel
    split
    · split
      · rfl
      · simp only [Option.map_some, mul_div_assoc]
    · rfl

/-- **C206** `remove_large_stripe` of a sinogram in another unit is its result in that unit, at every pixel that is
unique in its column and whose column has a nonzero factor: factors and marked columns are the same. -/
theorem large_scale_partial (ag ag' : Argsort K) (nrow ncol : Nat) (snr : K) (size : Nat) (hs : 1 ≤ size) (ratio : K)
    (norm : Bool) (X : Nat → Nat → K) (c : K) (hc : 0 < c) (out out' : Nat → Nat → Option K)
    (h : rsLarge ag nrow ncol snr size ratio norm X = .ok out)
    (h' : rsLarge ag' nrow ncol snr size ratio norm (fun t i => c * X t i) = .ok out') (t i : Nat) (ht : t < nrow)
    (hu : Unique nrow X t i) (hf : norm = true → listFact nrow ncol size ratio X i ≠ 0) :
    out' t i = (out t i).map fun x => c * x := by
  unfold rsLarge at h h'
  dsimp only at h h'
  rw [listFact_scale nrow ncol size hs ratio X c hc] at h'
  cases hm : detectStripe ncol (listFact nrow ncol size ratio X) snr with
  | error e => rw [hm] at h; cases h
  | ok m =>
    rw [hm] at h h'
    dsimp only at h h'
    generalize listFact nrow ncol size ratio X = fact at h h' hf
    have h := Except.ok.inj h
    have h' := Except.ok.inj h'
    subst h
    subst h'
    dsimp only
    split
    · rw [Option.map_some]
      congr 1
      obtain ⟨ρ, h1, _, h3⟩ := rs_sort_value ag (fun _ => medianCols ncol size (sortedImage nrow X)) nrow
        (fun t i => if norm then X t i / fact i else X t i) (fun _ _ _ _ _ _ => rfl) i
      obtain ⟨ρ', _, _, h3'⟩ := rs_sort_value ag'
        (fun _ => medianCols ncol size (sortedImage nrow fun t i => c * X t i)) nrow
        (fun t i => if norm then c * X t i / fact i else c * X t i) (fun _ _ _ _ _ _ => rfl) i
      obtain ⟨a1, _, a3⟩ := h3 t ht
      obtain ⟨b1, _, b3⟩ := h3' t ht
      rw [a3, b3]
      have e0 : (fun t i => if norm then c * X t i / fact i else c * X t i)
          = fun t i => c * (if norm then X t i / fact i else X t i) := by
        funext t i
        split
        · rw [mul_div_assoc]
        · rfl
      have hu1 : Unique nrow (fun t i => if norm then X t i / fact i else X t i) t i := by
        intro s hs he
        refine hu s hs ?_
        dsimp only at he
        cases norm with
        | false => simpa using he
        | true => exact (div_left_inj' (hf rfl)).1 (by simpa using he)
      have e1 := rank_unique nrow _ t i ht hu1 (ρ t) a1
      have hu' : Unique nrow (fun t i => c * (if norm then X t i / fact i else X t i)) t i :=
        fun s hs he => hu1 s hs ((scale_mono hc).injective he)
      rw [e0, show (if norm then c * X t i / fact i else c * X t i) = c * (if norm then X t i / fact i else X t i) from
        congrFun (congrFun e0 t) i] at b1
      have e2 := rank_unique nrow _ t i ht hu' (ρ' t) b1
      rw [column_map nrow (fun t i => if norm then X t i / fact i else X t i) (fun x => c * x), List.countP_map] at e2
      simp only [Function.comp_def, mul_lt_mul_iff_right₀ hc] at e2
      have e : ρ' t = ρ t := e2.trans e1.symm
      rw [e, ← medianCols_map (f := fun x => c * x) (Or.inl (scale_mono hc)) ncol hs]
      unfold medianCols
      congr 2
      refine List.map_congr_left fun a _ => ?_
      exact sortedImage_scale nrow _ X _ c hc (fun _ _ => rfl) _
    · unfold normPixel
      split
      · split
        · rfl
        · simp only [Option.map_some, mul_div_assoc]
      · rfl

theorem uniform10_affine (nrow : Nat) (X : Nat → Nat → K) (a b : K) (t i : Nat) :
    uniform10 nrow (fun t i => a * X t i + b) t i = a * uniform10 nrow X t i + b := by
  unfold uniform10
  rw [Finset.sum_add_distrib, ← Finset.mul_sum, Finset.sum_const, Finset.card_range, nsmul_eq_mul]
  push_cast
  ring

theorem listDiff_affine (nrow : Nat) (X : Nat → Nat → K) (a b : K) (i : Nat) :
    listDiff nrow (fun t i => a * X t i + b) i = |a| * listDiff nrow X i := by
  unfold listDiff
  rw [Finset.mul_sum]
  refine Finset.sum_congr rfl fun t _ => ?_
  rw [uniform10_affine, ← abs_mul]
  congr 1
  ring

/-- **C206** The detection and filling of dead columns commutes with every change of unit and offset, also with a
negative factor: the differences are compared, not the values. -/
theorem dead_fill_affine (nrow ncol : Nat) (snr : K) (size : Nat) (hs : 1 ≤ size) (X : Nat → Nat → K) (a b : K)
    (ha : a ≠ 0) :
    rsDeadFill nrow ncol snr size (fun t i => a * X t i + b)
      = (rsDeadFill nrow ncol snr size X).map fun Y t i => (Y t i).map fun x => a * x + b := by
  have e : deadFact nrow ncol size (fun t i => a * X t i + b) = deadFact nrow ncol size X := by
    funext i
    unfold deadFact
    simp only [listDiff_affine]
    rw [medianCols_map (f := fun x => |a| * x) (Or.inl (scale_mono (abs_pos.2 ha))) ncol hs
      (fun c _ => listDiff nrow X c) i 0, ratio_scale (abs_ne_zero.2 ha)]
  unfold rsDeadFill
  rw [e]
  cases detectStripe ncol (deadFact nrow ncol size X) snr with
  | error e => rfl
  | ok m => exact fillGaps_affine nrow ncol _ (fun t i => some (X t i)) a b

/-- Two projections of five pixels; pixel 1 is brighter than the others and varies. -/
def varyingSino (t i : Nat) : ℚ := if i = 1 then 3 + 2 * t else 1

/-- **C206** An offset is not carried through by the interpolation-based method: it divides by factors. -/
theorem interp_offset_fails :
    (rsInterpolation 2 5 3 3 (1 / 10) true varyingSino).toOption.bind (fun Y => Y 0 1) = some (3 / 4) ∧
    (rsInterpolation 2 5 3 3 (1 / 10) true fun t i => varyingSino t i + 1).toOption.bind (fun Y => Y 0 1)
      = some (8 / 5) := by
  constructor <;> decide +kernel

end Vo

section Fft

/-- **C206** The filtering-based method of a sinogram in another unit gives its result in that unit, wherever the
low-pass part has a value that is unique in its column. -/
theorem rs_filter_scale_partial (ag ag' : Argsort ℝ) (nrow ncol pad : Nat) (w : Nat → ℝ) (size dim : Nat)
    (hs : 1 ≤ size) (X : Nat → Nat → ℝ) (c : ℝ) (hc : 0 < c) (t i : Nat) (ht : t < nrow) (hi : i < ncol)
    (hu : Unique nrow (fun t i => smoothColumn nrow pad w (fun t => X t i) t) t i) :
    rsFilterFft ag' nrow ncol pad w size dim (fun t i => c * X t i) t i
      = c * rsFilterFft ag nrow ncol pad w size dim X t i := by
  have e : ∀ t i, smoothColumn nrow pad w (fun t => c * X t i) t = c * smoothColumn nrow pad w (fun t => X t i) t := by
    intro t i
    have := smooth_linear nrow pad w (fun t => X t i) (fun t => X t i) c 0 t
    simpa using this
  unfold rsFilterFft
  dsimp only
  simp only [e]
  rw [rs_sort_units_partial ag ag' nrow ncol size dim hs (fun t i => smoothColumn nrow pad w (fun t => X t i) t)
    (fun x => c * x) (fun _ _ h => mul_lt_mul_of_pos_left h hc) i t hi ht hu]
  ring

end Fft

section Sf
variable {K : Type} [Field K]

/-- **C206** `remove_stripe_sf` commutes with every change of unit and offset, also with a negative factor. -/
theorem sf_affine [CharZero K] (dx dy dz size : Nat) (h1 : 1 ≤ size) (X : Nat → Nat → Nat → K) (a b : K)
    (m m' : SfCell → Option K) (hX : HoldsStack ⟨dx, dy, dz, size⟩ m X)
    (hX' : HoldsStack ⟨dx, dy, dz, size⟩ m' fun s p j => a * X s p j + b) :
    ∀ s < dy, ∀ p < dx, ∀ j < dz, (sfProg ⟨dx, dy, dz, size⟩).run m' (.data (j + s * dz + p * dy * dz))
        = ((sfProg ⟨dx, dy, dz, size⟩).run m (.data (j + s * dz + p * dy * dz))).map fun x => a * x + b := by
  intro s hs p hp j hj
  have hdx : (dx : K) ≠ 0 := by exact_mod_cast (by omega : dx ≠ 0)
  have hsz : (size : K) ≠ 0 := by exact_mod_cast (by omega : size ≠ 0)
  have e : ∀ k, colMean dx (fun p j => a * X s p j + b) k = a * colMean dx (X s) k + b := by
    intro k
    unfold colMean
    rw [Finset.sum_add_distrib, ← Finset.mul_sum, Finset.sum_const, Finset.card_range, nsmul_eq_mul]
    field_simp
  have e2 : smoothMean dx dz size (fun p j => a * X s p j + b) j = a * smoothMean dx dz size (X s) j + b := by
    unfold smoothMean
    simp only [e]
    rw [Finset.sum_add_distrib, ← Finset.mul_sum, Finset.sum_const, Finset.card_range, nsmul_eq_mul]
    field_simp
  rw [sf_result dx dy dz size h1 X m hX s hs p hp j hj, sf_result dx dy dz size h1 _ m' hX' s hs p hp j hj]
  dsimp only
  rw [e, e2, Option.map_some]
  congr 1
  ring

end Sf

/-! Concrete cases. -/

example : Unique 2 tieSino 0 0 ∧ StrictMono (fun x : ℚ => 2 * x + 3) ∧ StrictAnti fun x : ℚ => 1 - x := by
  refine ⟨?_, fun a b h => by dsimp only; linarith, fun a b h => by dsimp only; linarith⟩
  intro s hs h
  have : s = 0 ∨ s = 1 := by omega
  rcases this with rfl | rfl
  · rfl
  · revert h; decide +kernel

example : HoldsStack ⟨2, 1, 3, (3 : Nat)⟩ (fun l => match l with | .data a => some (a : ℚ) | _ => none)
      (fun _ p j => (j + p * 3 : ℚ)) ∧
    HoldsStack ⟨2, 1, 3, (3 : Nat)⟩ (fun l => match l with | .data a => some (2 * (a : ℚ) + 1) | _ => none)
      (fun _ p j => 2 * (j + p * 3 : ℚ) + 1) := by
  constructor <;> · intro s hs p _ j _; obtain rfl : s = 0 := by (dsimp only at hs; omega)
                    dsimp only; push_cast; simp

example (X : Nat → Nat → ℝ) (w : Nat → ℝ) (i : Nat) :
    Unique 1 (fun t i => smoothColumn 1 0 w (fun t => X t i) t) 0 i := fun s hs _ => by omega

example : (rsDeadFill 2 5 3 3 varyingSino).toOption.bind (fun Y => Y 1 1) = some 5 ∧
    (rsDeadFill 2 5 3 3 fun t i => -2 * varyingSino t i + 1).toOption.bind (fun Y => Y 1 1) = some (-9) := by
  constructor <;> decide +kernel

example : Unique 2 varyingSino 0 1 ∧
    (rsLarge argsortUp 2 5 3 3 (1 / 10) true varyingSino).toOption.bind (fun Y => Y 0 1) = some 1 ∧
    (rsLarge argsortUp 2 5 3 3 (1 / 10) true fun t i => 2 * varyingSino t i).toOption.bind (fun Y => Y 0 1)
      = some 2 ∧ listFact 2 5 3 (1 / 10) varyingSino 1 = 4 := by
  refine ⟨?_, ?_⟩
  · intro s hs h
    have : s = 0 ∨ s = 1 := by omega
    rcases this with rfl | rfl
    · rfl
    · revert h; decide +kernel
  · decide +kernel

end Tomopy.Sym
