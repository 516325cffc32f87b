import Verif.Stripe.SortModel
import Mathlib.Algebra.Order.Ring.Rat
import Mathlib.Algebra.Order.Field.Rat
import Mathlib.Data.List.GetD
import Mathlib.Tactic.Linarith
import Mathlib.Tactic.NormNum

/-! Theorems about the sorting-based stripe removal (C41). -/
set_option linter.unusedSectionVars false

namespace Tomopy.Stripe
open Tomopy.Num

variable {K : Type} [LinearOrder K] [Field K] [IsStrictOrderedRing K]

/-! ### Specification -/

/-- The values of a column of the sinogram. -/
def column (nrow : Nat) (X : Nat → Nat → K) (i : Nat) : List K := (List.range nrow).map fun t => X t i

/-- The image of sorted columns: `r`-th smallest value of column `i`. -/
def sortedImage (nrow : Nat) (X : Nat → Nat → K) (i r : Nat) : K :=
  (sortL (column nrow X i)).getD r 0

/-- The columns in the window of the filter around column `i`, repeated at the border as scipy's
'reflect' mode does. -/
def windowCols (ncol size i : Nat) : List Nat :=
  (List.range size).map fun a : Nat => Corr.reflect ncol ((i : Int) + a - (size / 2 : Nat))

/-! ### Sorting and unsorting -/

theorem map_getD_range {α : Type} (l : List α) (d : α) :
    (List.range l.length).map (fun k => l.getD k d) = l := by
  refine List.ext_getElem (by simp) fun i h1 h2 => ?_
  simp [List.getD, h2]

theorem length_of_isArgsort {l : List K} {σ : List Nat} (h : IsArgsort l σ) :
    σ.length = l.length := by
  rw [h.1.length_eq, List.length_range]

theorem sorted_of_isArgsort {l : List K} {σ : List Nat} (h : IsArgsort l σ) :
    (σ.map fun k => l.getD k 0) = sortL l := by
  refine List.Perm.eq_of_pairwise' h.2 (pairwise_sortL l) ?_
  refine ((h.1.map _).trans ?_).trans (perm_sortL l).symm
  rw [map_getD_range]

theorem unsort {n : Nat} {σ τ : List Nat} (hσ : σ.Perm (List.range n))
    (h : IsArgsort (σ.map fun k : Nat => (k : K)) τ) : (τ.map fun u => σ.getD u 0) = List.range n := by
  have hlen : (σ.map fun k : Nat => (k : K)).length = σ.length := List.length_map ..
  have hmem : ∀ u ∈ τ, u < σ.length := fun u hu => by
    have := List.mem_range.1 (h.1.mem_iff.1 hu)
    rwa [hlen] at this
  refine List.Perm.eq_of_pairwise' (r := (· ≤ ·)) ?_ ?_ ?_
  · have h2 := h.2
    rw [List.pairwise_map] at h2 ⊢
    refine List.Pairwise.imp_of_mem ?_ h2
    intro a b ha hb hab
    have e : ∀ u ∈ τ, (σ.map fun k : Nat => (k : K)).getD u 0 = ((σ.getD u 0 : Nat) : K) := fun u hu => by
      have := hmem u hu
      simp [List.getD, this]
    rw [e a ha, e b hb] at hab
    exact_mod_cast hab
  · exact List.pairwise_lt_range.imp fun h => h.le
  · refine ((h.1.map _).trans ?_).trans hσ
    rw [hlen, map_getD_range]

theorem zip_getD {n k : Nat} (hk : k < n) (f : Nat → K) :
    ((matIndexRow K n).zip ((List.range n).map f)).getD k (0, 0) = ((k : K), f k) := by
  unfold matIndexRow
  rw [List.getD_eq_getElem?_getD, List.getElem?_eq_getElem (by simpa using hk)]
  simp

/-- The core of `_rs_sort`: every pixel gets the filtered value at its own position in the sorted
column. -/
theorem rsSortWith_core (ag : Argsort K) (F : (Nat → Nat → K) → Nat → Nat → K) (nrow : Nat)
    (X : Nat → Nat → K) (i : Nat) :
    ∃ σ τ : List Nat, σ.Perm (List.range nrow) ∧ τ.Perm (List.range nrow) ∧
      (τ.map fun u => σ.getD u 0) = List.range nrow ∧
      (∀ r < nrow, X (σ.getD r 0) i = sortedImage nrow X i r) ∧
      ∀ t < nrow, rsSortWith ag F nrow X t i
        = F (fun i r => if r < nrow then sortedImage nrow X i r else 0) i (τ.getD t 0) := by
  let comb := fun i : Nat => (matIndexRow K nrow).zip ((List.range nrow).map fun t => X t i)
  have hsnd : ∀ i, (comb i).map Prod.snd = column nrow X i := fun i => by
    refine List.map_snd_zip ?_
    simp [matIndexRow]
  let σ := fun i => ag.run (column nrow X i)
  have hσ : ∀ i, IsArgsort (column nrow X i) (σ i) := fun i => ag.ok _
  have hlenc : ∀ i, (column nrow X i).length = nrow := fun i => by simp [column]
  have hperm : ∀ i, (σ i).Perm (List.range nrow) := fun i => by
    have := (hσ i).1; rwa [hlenc] at this
  have hlen : ∀ i, (σ i).length = nrow := fun i => by
    rw [(hperm i).length_eq, List.length_range]
  have hlt : ∀ i, ∀ k ∈ σ i, k < nrow := fun i k hk => List.mem_range.1 ((hperm i).mem_iff.1 hk)
  have hsorted : ∀ i, sortByValue ag (comb i) = (σ i).map fun k : Nat => ((k : K), X k i) := by
    intro i
    unfold sortByValue
    rw [hsnd]
    refine List.map_congr_left fun k hk => ?_
    exact zip_getD (hlt i k hk) fun t => X t i
  have hX : ∀ i, ∀ r < nrow, X ((σ i).getD r 0) i = sortedImage nrow X i r := by
    intro i r hr
    unfold sortedImage
    rw [← sorted_of_isArgsort (hσ i)]
    have hr' : r < (σ i).length := by rw [hlen]; exact hr
    have hk : (σ i)[r] < nrow := hlt i _ (List.getElem_mem hr')
    simp [List.getD, hr', column, hk]
  have hS : (fun i r : Nat => ((sortByValue ag (comb i)).getD r (0, 0)).2)
      = fun i r => if r < nrow then sortedImage nrow X i r else 0 := by
    funext i r
    rw [hsorted]
    split
    · rename_i hr
      rw [← hX i r hr]
      have hr' : r < (σ i).length := by rw [hlen]; exact hr
      simp [List.getD, hr']
    · rename_i hr
      have hr' : ¬ r < (σ i).length := by rw [hlen]; exact hr
      rw [List.getD_eq_getElem?_getD, List.getElem?_eq_none (by simpa using hr')]
      rfl
  let G := F fun i r => if r < nrow then sortedImage nrow X i r else 0
  have hfil : ((sortByValue ag (comb i)).mapIdx fun r p => (p.1, G i r)).map Prod.fst
      = (σ i).map fun k : Nat => (k : K) := by
    rw [hsorted]
    refine List.ext_getElem (by simp) fun r h1 h2 => ?_
    simp
  let τ := ag.run ((σ i).map fun k : Nat => (k : K))
  have hτ : IsArgsort ((σ i).map fun k : Nat => (k : K)) τ := ag.ok _
  have hτp : τ.Perm (List.range nrow) := by
    have := hτ.1; rwa [List.length_map, hlen] at this
  refine ⟨σ i, τ, hperm i, hτp, unsort (hperm i) hτ, hX i, fun t ht => ?_⟩
  have hback : rsSortWith ag F nrow X t i
      = ((τ.map fun u => ((sortByValue ag (comb i)).mapIdx
          fun r p => (p.1, G i r)).getD u (0, 0)).getD t (0, 0)).2 := by
    show ((sortByIndex ag ((sortByValue ag (comb i)).mapIdx fun r p =>
      (p.1, F (fun i r : Nat => ((sortByValue ag (comb i)).getD r (0, 0)).2) i r))).getD t (0, 0)).2
      = _
    rw [hS]
    unfold sortByIndex
    rw [hfil]
  rw [hback]
  have ht' : t < τ.length := by rw [hτp.length_eq, List.length_range]; exact ht
  have hu : τ[t] < nrow := List.mem_range.1 (hτp.mem_iff.1 (List.getElem_mem ht'))
  have hu' : τ[t] < (sortByValue ag (comb i)).length := by
    rw [hsorted, List.length_map, hlen]; exact hu
  simp only [List.getD_eq_getElem?_getD, List.getElem?_map, List.getElem?_eq_getElem ht',
    Option.map_some, Option.getD_some, List.getElem?_mapIdx, List.getElem?_eq_getElem hu']
  rfl

/-! ### C41 -/

/-- **C41** For every sinogram, every filter `F` and however ties are sorted: every column has a
one-to-one assignment `ρ` of angles to ranks such that a pixel is the element of that rank in its
column, and its new value is the filtered image of sorted columns at that rank. -/
theorem rs_sort_value (ag : Argsort K) (F : (Nat → Nat → K) → Nat → Nat → K)
    (nrow : Nat) (X : Nat → Nat → K)
    (hF : ∀ S S' : Nat → Nat → K, (∀ i, ∀ r < nrow, S i r = S' i r) →
      ∀ i, ∀ r < nrow, F S i r = F S' i r) (i : Nat) :
    ∃ ρ : Nat → Nat, (∀ t < nrow, ρ t < nrow) ∧
      (∀ t < nrow, ∀ t' < nrow, ρ t = ρ t' → t = t') ∧
      ∀ t < nrow, IsRank (column nrow X i) (ρ t) (X t i) ∧
        sortedImage nrow X i (ρ t) = X t i ∧
        rsSortWith ag F nrow X t i = F (sortedImage nrow X) i (ρ t) := by
  obtain ⟨σ, τ, hσ, hτ, hστ, hX, hout⟩ := rsSortWith_core ag F nrow X i
  have hl : τ.length = nrow := by rw [hτ.length_eq, List.length_range]
  have hρ : ∀ t < nrow, τ.getD t 0 < nrow ∧ σ.getD (τ.getD t 0) 0 = t := by
    intro t ht
    have ht' : t < τ.length := by omega
    have h1 : τ.getD t 0 = τ[t] := by simp [List.getD, ht']
    have h2 : τ[t] < nrow := List.mem_range.1 (hτ.mem_iff.1 (List.getElem_mem ht'))
    refine ⟨h1 ▸ h2, ?_⟩
    have h3 : (τ.map fun u => σ.getD u 0)[t]? = (List.range nrow)[t]? := by rw [hστ]
    rw [List.getElem?_map, List.getElem?_eq_getElem ht',
      List.getElem?_eq_getElem (by simpa using ht)] at h3
    rw [h1]
    simpa using h3
  refine ⟨fun t => τ.getD t 0, fun t ht => (hρ t ht).1, fun t ht t' ht' e => ?_, fun t ht => ?_⟩
  · have := (hρ t ht).2
    dsimp only at e
    rw [e, (hρ t' ht').2] at this
    exact this.symm
  · have e : sortedImage nrow X i (τ.getD t 0) = X t i := by
      rw [← hX _ (hρ t ht).1, (hρ t ht).2]
    refine ⟨?_, e, ?_⟩
    · rw [← e]
      unfold sortedImage
      have hc : (column nrow X i).length = nrow := by simp [column]
      rw [getD_sortL _ (by rw [hc]; exact (hρ t ht).1)]
      exact sortL_isRank _ _ _
    · rw [hout t ht]
      exact hF _ _ (fun i r hr => if_pos hr) i _ (hρ t ht).1

/-- The median filters only look at ranks inside the image. -/
theorem reflect_lt {n : Nat} (hn : 0 < n) (k : Int) : Corr.reflect n k < n := by
  unfold Corr.reflect
  dsimp only
  have h1 : 0 ≤ k % (2 * n) := Int.emod_nonneg _ (by omega)
  have h2 : k % (2 * n) < 2 * n := Int.emod_lt_of_pos _ (by omega)
  split <;> omega

theorem rsFilter_local (nrow ncol size dim : Nat) (S S' : Nat → Nat → K)
    (h : ∀ i, ∀ r < nrow, S i r = S' i r) (i r : Nat) (hr : r < nrow) :
    rsFilter nrow ncol size dim S i r = rsFilter nrow ncol size dim S' i r := by
  unfold rsFilter
  split
  · unfold medianCols
    simp only [h _ r hr]
  · unfold Corr.scipyMedian Corr.scipyWindow
    simp only [h _ _ (reflect_lt (by omega : 0 < nrow) _)]

/-- **C41** If the filter leaves the image of sorted columns unchanged, the sinogram is returned
unchanged. -/
theorem rs_sort_neutral (ag : Argsort K) (nrow ncol size dim : Nat) (X : Nat → Nat → K)
    (h : ∀ i < ncol, ∀ r < nrow, rsFilter nrow ncol size dim (sortedImage nrow X) i r
      = sortedImage nrow X i r) :
    ∀ t < nrow, ∀ i < ncol, rsSort ag nrow ncol size dim X t i = X t i := by
  intro t ht i hi
  obtain ⟨ρ, h1, _, h3⟩ := rs_sort_value ag (rsFilter nrow ncol size dim) nrow X
    (fun S S' hS i r hr => rsFilter_local nrow ncol size dim S S' hS i r hr) i
  obtain ⟨_, h4, h5⟩ := h3 t ht
  unfold rsSort
  rw [h5, h i hi _ (h1 t ht), h4]

/-- Larger entries have a larger element of every rank. -/
theorem isRank_mono {α : Type} (l : List α) (f g : α → K) (h : ∀ a ∈ l, f a ≤ g a) {k : Nat}
    {v w : K} (hv : IsRank (l.map f) k v) (hw : IsRank (l.map g) k w) : v ≤ w := by
  by_contra hc
  have hc := not_le.1 hc
  have : (l.map g).countP (fun x => decide (x ≤ w)) ≤ (l.map f).countP (fun x => decide (x < v)) := by
    rw [List.countP_map, List.countP_map]
    refine List.countP_mono_left fun a ha hx => ?_
    simp only [Function.comp, decide_eq_true_eq] at hx ⊢
    exact lt_of_le_of_lt (le_trans (h a ha) hx) hc
  exact absurd hw.2 (not_lt.2 (le_trans this hv.1))

theorem medianCols_isRank (ncol size : Nat) (hs : 1 ≤ size) (S : Nat → Nat → K) (i r : Nat) :
    IsRank ((windowCols ncol size i).map fun c => S c r) (size / 2) (medianCols ncol size S i r) := by
  unfold medianCols windowCols
  rw [List.map_map]
  have hl : ((List.range size).map fun a : Nat =>
      S (Corr.reflect ncol ((i : Int) + a - (size / 2 : Nat))) r).length = size := by simp
  rw [getD_sortL _ (by rw [hl]; omega)]
  exact sortL_isRank _ _ _

theorem sortedImage_mono (nrow : Nat) (X : Nat → Nat → K) (i : Nat) {r r' : Nat} (h : r ≤ r')
    (hr' : r' < nrow) : sortedImage nrow X i r ≤ sortedImage nrow X i r' := by
  have hc : (column nrow X i).length = nrow := by simp [column]
  unfold sortedImage
  rw [getD_sortL _ (by omega), getD_sortL _ (by omega)]
  exact sortL_mono _ h _

/-- **C41** With the one-dimensional filter the order of the pixels in a column is kept. -/
theorem rs_sort_keeps_order (ag : Argsort K) (nrow ncol size : Nat) (hs : 1 ≤ size)
    (X : Nat → Nat → K) (i t t' : Nat) (ht : t < nrow) (ht' : t' < nrow) (h : X t i < X t' i) :
    rsSort ag nrow ncol size 1 X t i ≤ rsSort ag nrow ncol size 1 X t' i := by
  obtain ⟨ρ, h1, _, h3⟩ := rs_sort_value ag (rsFilter nrow ncol size 1) nrow X
    (fun S S' hS i r hr => rsFilter_local nrow ncol size 1 S S' hS i r hr) i
  obtain ⟨_, h4, h5⟩ := h3 t ht
  obtain ⟨_, h4', h5'⟩ := h3 t' ht'
  unfold rsSort
  rw [h5, h5']
  have hle : ρ t ≤ ρ t' := by
    by_contra hc
    have := sortedImage_mono nrow X i (not_le.1 hc).le (h1 t ht)
    rw [h4, h4'] at this
    exact absurd h (not_lt.2 this)
  unfold rsFilter
  rw [if_pos rfl, if_pos rfl]
  exact isRank_mono (windowCols ncol size i) _ _
    (fun c _ => sortedImage_mono nrow X c hle (h1 t' ht'))
    (medianCols_isRank ncol size hs _ i _) (medianCols_isRank ncol size hs _ i _)

/-- If most of a list has one value, that is its element of middle rank. -/
theorem isRank_majority {α : Type} (l : List α) (f : α → K) (v : K)
    (h : l.countP (fun a => decide (f a ≠ v)) ≤ (l.length - 1) / 2) (hl : l ≠ []) :
    IsRank (l.map f) (l.length / 2) v := by
  have hpos := List.length_pos_iff.2 hl
  have h1 : (l.map f).countP (fun x => decide (x < v)) ≤ l.countP (fun a => decide (f a ≠ v)) := by
    rw [List.countP_map]
    refine List.countP_mono_left fun a _ hx => ?_
    simp only [Function.comp, decide_eq_true_eq] at hx ⊢
    exact ne_of_lt hx
  have h2 : l.length ≤ (l.map f).countP (fun x => decide (x ≤ v))
      + l.countP (fun a => decide (f a ≠ v)) := by
    rw [List.countP_map]
    have := List.length_eq_countP_add_countP (fun a => decide (f a ≠ v)) (l := l)
    have h3 : l.countP (fun a => decide ¬ (decide (f a ≠ v) = true)) ≤
        l.countP ((fun x => decide (x ≤ v)) ∘ f) := by
      refine List.countP_mono_left fun a _ hx => ?_
      simp only [Function.comp, decide_eq_true_eq, not_not] at hx ⊢
      exact le_of_eq hx
    omega
  constructor <;> omega

/-- **C41** Ideal stripes are removed exactly.  Suppose the pixels of column `i` are `a u + b` with
`a > 0`, where the true column `u` has the same sorted values as all but a minority of the columns
in the filter window of `i`.  Then the corrected column is `u`. -/
theorem rs_sort_removes_stripe (ag : Argsort K) (nrow ncol size : Nat) (hs : 1 ≤ size)
    (X : Nat → Nat → K) (i : Nat) (u : Nat → K) (a b : K) (ha : 0 < a)
    (hcol : ∀ t < nrow, X t i = a * u t + b)
    (hmaj : (windowCols ncol size i).countP (fun c => decide (¬ (column nrow X c).Perm
      ((List.range nrow).map u))) ≤ (size - 1) / 2) :
    ∀ t < nrow, rsSort ag nrow ncol size 1 X t i = u t := by
  intro t ht
  obtain ⟨ρ, h1, _, h3⟩ := rs_sort_value ag (rsFilter nrow ncol size 1) nrow X
    (fun S S' hS i r hr => rsFilter_local nrow ncol size 1 S S' hS i r hr) i
  obtain ⟨_, h4, h5⟩ := h3 t ht
  unfold rsSort
  rw [h5]
  unfold rsFilter
  rw [if_pos rfl]
  set P := sortL ((List.range nrow).map u) with hP
  have hPl : P.length = nrow := by rw [hP, length_sortL]; simp
  have hlw : (windowCols ncol size i).length = size := by simp [windowCols]
  -- the filtered value is the true profile
  have e1 : medianCols ncol size (sortedImage nrow X) i (ρ t) = P.getD (ρ t) 0 := by
    have hr := medianCols_isRank ncol size hs (sortedImage nrow X) i (ρ t)
    refine hr.unique ?_
    have := isRank_majority (windowCols ncol size i) (fun c => sortedImage nrow X c (ρ t))
      (P.getD (ρ t) 0) (by
        rw [hlw]
        refine le_trans (List.countP_mono_left fun c _ hc => ?_) hmaj
        simp only [decide_eq_true_eq] at hc ⊢
        intro hp
        refine hc ?_
        unfold sortedImage
        rw [sortL_perm hp]) (by intro e; rw [e] at hlw; simp at hlw; omega)
    rwa [hlw] at this
  rw [e1]
  -- the sorted column is the affine image of the profile
  have e2 : sortL (column nrow X i) = P.map fun x => a * x + b := by
    refine List.Perm.eq_of_pairwise' (pairwise_sortL _) ?_ ?_
    · rw [List.pairwise_map]
      refine (pairwise_sortL _).imp fun {x y} hxy => ?_
      have := mul_le_mul_of_nonneg_left hxy ha.le
      linarith
    · refine (perm_sortL _).trans ?_
      have : column nrow X i = ((List.range nrow).map u).map fun x => a * x + b := by
        unfold column
        rw [List.map_map]
        refine List.map_congr_left fun t ht => ?_
        exact hcol t (List.mem_range.1 ht)
      rw [this]
      exact ((perm_sortL _).map _).symm
  have hρ : ρ t < P.length := by rw [hPl]; exact h1 t ht
  have e3 : a * P.getD (ρ t) 0 + b = a * u t + b := by
    rw [← hcol t ht, ← h4]
    unfold sortedImage
    rw [e2]
    simp [List.getD, hρ]
  have e4 : a * P.getD (ρ t) 0 = a * u t := by linarith
  exact mul_left_cancel₀ (ne_of_gt ha) e4

/-- **C41** The default window has between 5 and 21 columns. -/
theorem rs_sort_default_size (ncol : Nat) : 5 ≤ rsSize ncol none ∧ rsSize ncol none ≤ 21 := by
  unfold rsSize
  dsimp only
  split <;> omega

/-- **C41** For every number of cores, chunk size and schedule, every slice of the result is
`_rs_sort` of that slice. -/
theorem rs_sort_distributed (ag : Argsort K) (cpu : Nat) (debug : Bool) (n nrow ncol dim : Nat)
    (size ncore nchunk : Option Nat) (m m' : Mproc.Cell → Nat → Nat → K) (res : Mproc.Buf)
    (h : Mproc.DistributeJobs cpu debug
      ⟨n, [0], none, fun _ => false, removeStripeBasedSorting ag nrow ncol size dim, ncore, nchunk,
        fun _ => false⟩ (fun _ => false) m m' res) :
    ∀ s < n, m' (res, s) = rsSort ag nrow ncol (rsSize ncol size) dim (m (.caller 0, s)) := by
  intro s hs
  have hf : Mproc.InPlaceSlicewise (removeStripeBasedSorting ag nrow ncol size dim)
      (fun row => row.map (rsSort ag nrow ncol (rsSize ncol size) dim)) :=
    ⟨fun _ => rfl, fun _ => rfl, fun _ => List.length_map ..⟩
  have key := Mproc.inplace_result_partial hf (by simp) (by simp) rfl h s hs
  simpa using key

/-! ### Ties -/

/-- A sort whose ties keep the order of `base`. -/
def argsortFrom (base : Nat → List Nat) (hb : ∀ n, (base n).Perm (List.range n)) : Argsort K where
  run l := (base l.length).insertionSort fun a b => l.getD a 0 ≤ l.getD b 0
  ok l := by
    constructor
    · exact (List.perm_insertionSort ..).trans (hb _)
    · rw [List.pairwise_map]
      have : Std.Total fun a b : Nat => l.getD a 0 ≤ l.getD b 0 := ⟨fun a b => le_total _ _⟩
      have : IsTrans Nat fun a b : Nat => l.getD a 0 ≤ l.getD b 0 :=
        ⟨fun a b c h h' => le_trans h h'⟩
      exact List.pairwise_insertionSort _ _

/-- Ties in increasing order of position. -/
def argsortUp : Argsort K := argsortFrom List.range fun _ => List.Perm.refl _

/-- Ties in decreasing order of position. -/
def argsortDown : Argsort K :=
  argsortFrom (fun n => (List.range n).reverse) fun _ => List.reverse_perm _

/-- A sinogram of 2 angles and 3 columns; the middle column is constant. -/
def tieSino : Nat → Nat → ℚ := fun t i =>
  if i = 0 then (if t = 0 then 0 else 10) else if i = 1 then 5 else (if t = 0 then 1 else 9)

/-- **C41** (limit of the claim) Pixels of equal value in a column get values according to the
order in which the unstable sort leaves them: two correct implementations of `argsort` give
different results. -/
theorem rs_sort_tie_dependent :
    rsSort argsortUp 2 3 3 1 tieSino 0 1 = 1 ∧ rsSort argsortDown 2 3 3 1 tieSino 0 1 = 9 := by
  constructor <;> decide +kernel

/-- **C41** Without ties in a column the result does not depend on the implementation. -/
theorem rs_sort_unique_partial (ag ag' : Argsort K) (nrow ncol size dim : Nat) (X : Nat → Nat → K)
    (i : Nat) (hd : ∀ t < nrow, ∀ t' < nrow, X t i = X t' i → t = t') :
    ∀ t < nrow, rsSort ag nrow ncol size dim X t i = rsSort ag' nrow ncol size dim X t i := by
  intro t ht
  obtain ⟨ρ, h1, _, h3⟩ := rs_sort_value ag (rsFilter nrow ncol size dim) nrow X
    (fun S S' hS i r hr => rsFilter_local nrow ncol size dim S S' hS i r hr) i
  obtain ⟨ρ', h1', h2', h3'⟩ := rs_sort_value ag' (rsFilter nrow ncol size dim) nrow X
    (fun S S' hS i r hr => rsFilter_local nrow ncol size dim S S' hS i r hr) i
  obtain ⟨a1, a2, a3⟩ := h3 t ht
  obtain ⟨b1, b2, b3⟩ := h3' t ht
  unfold rsSort
  rw [a3, b3]
  -- both ranks equal the number of smaller pixels
  have key : ∀ r, IsRank (column nrow X i) r (X t i) →
      r = (column nrow X i).countP (fun x => decide (x < X t i)) := by
    intro r hr
    have hcol : (column nrow X i).countP (fun x => decide (x ≤ X t i))
        ≤ (column nrow X i).countP (fun x => decide (x < X t i)) + 1 := by
      unfold column
      rw [List.countP_map, List.countP_map]
      have hsplit : ∀ l : List Nat, (∀ s ∈ l, s < nrow) → l.Nodup →
          l.countP ((fun x => decide (x ≤ X t i)) ∘ fun s => X s i)
            ≤ l.countP ((fun x => decide (x < X t i)) ∘ fun s => X s i) + l.count t := by
        intro l hl hn
        induction l with
        | nil => simp
        | cons s l ih =>
          have := ih (fun s hs => hl s (List.mem_cons_of_mem _ hs)) (List.nodup_cons.1 hn).2
          simp only [List.countP_cons, List.count_cons, Function.comp, decide_eq_true_eq, beq_iff_eq]
          rcases lt_trichotomy (X s i) (X t i) with hlt | heq | hgt
          · simp only [hlt, hlt.le, if_true]; split <;> omega
          · have hst := hd s (hl s List.mem_cons_self) t ht heq
            subst hst
            simp only [le_refl, lt_irrefl, if_true, if_false]
            omega
          · simp only [not_le.2 hgt, not_lt.2 hgt.le, if_false]; split <;> omega
      have := hsplit (List.range nrow) (fun s hs => List.mem_range.1 hs) List.nodup_range
      have hc : (List.range nrow).count t ≤ 1 := List.nodup_iff_count_le_one.1 List.nodup_range t
      omega
    have := hr.1
    have := hr.2
    omega
  rw [key _ a1, key _ b1]

/-! Hypotheses of the theorems on concrete sinograms: a sinogram with identical sorted columns and
one stripe of gain 2 and offset 1. -/
def stripeSino : Nat → Nat → ℚ := fun t i => if i = 2 then 2 * t + 1 else ((t + i) % 3 : Nat)

example : (windowCols 5 3 2).countP (fun c => decide (¬ (column 3 stripeSino c).Perm
    ((List.range 3).map fun t : Nat => (t : ℚ)))) ≤ (3 - 1) / 2 := by decide +kernel

example : rsSort argsortUp 3 5 3 1 stripeSino 1 2 = 1 := by decide +kernel

example : ∀ i < 3, ∀ r < 2, rsFilter 2 3 3 1 (sortedImage 2 fun t _ => (t : ℚ)) i r
    = sortedImage 2 (fun t _ => (t : ℚ)) i r := by decide +kernel

end Tomopy.Stripe
