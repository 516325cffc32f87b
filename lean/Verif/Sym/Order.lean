import Verif.Stripe.Sort
import Verif.Stripe.Sf

/-! C198: stripe removal of scans whose projections come in another order, and of mirrored scans: the sorting-based
method and `remove_stripe_sf`. -/

set_option linter.unusedSectionVars false

namespace Tomopy.Sym
open Tomopy.Stripe Tomopy.Num

/-- `π` numbers the `n` projections in another order. -/
def Reorders (n : Nat) (π : Nat → Nat) : Prop := (∀ t < n, π t < n) ∧ ∀ t < n, ∀ t' < n, π t = π t' → t = t'

theorem map_reorders {n : Nat} {π : Nat → Nat} (h : Reorders n π) : ((List.range n).map π).Perm (List.range n) := by
  refine (List.perm_ext_iff_of_nodup ?_ List.nodup_range).2 ?_
  · refine List.Nodup.map_on ?_ List.nodup_range
    intro a ha b hb e
    exact h.2 a (List.mem_range.1 ha) b (List.mem_range.1 hb) e
  · have hsub : (List.range n).map π ⊆ List.range n := by
      intro x hx
      obtain ⟨t, ht, rfl⟩ := List.mem_map.1 hx
      exact List.mem_range.2 (h.1 t (List.mem_range.1 ht))
    have hnd : ((List.range n).map π).Nodup := by
      refine List.Nodup.map_on ?_ List.nodup_range
      intro a ha b hb e
      exact h.2 a (List.mem_range.1 ha) b (List.mem_range.1 hb) e
    have hp := (hnd.subperm hsub).perm_of_length_le (by simp)
    intro a
    exact hp.mem_iff

section Sorting
variable {K : Type} [LinearOrder K] [Field K] [IsStrictOrderedRing K]

/-- The pixel of angle `t` in column `i` has a value no other pixel of that column has. -/
def Unique (nrow : Nat) (X : Nat → Nat → K) (t i : Nat) : Prop := ∀ s < nrow, X s i = X t i → s = t

theorem rank_unique (nrow : Nat) (X : Nat → Nat → K) (t i : Nat) (ht : t < nrow) (hu : Unique nrow X t i) (r : Nat)
    (hr : IsRank (column nrow X i) r (X t i)) : r = (column nrow X i).countP fun x => decide (x < X t i) := by
  have hsplit : ∀ l : List Nat, (∀ s ∈ l, s < nrow) → l.Nodup →
      l.countP ((fun x => decide (x ≤ X t i)) ∘ fun s => X s i)
        ≤ l.countP ((fun x => decide (x < X t i)) ∘ fun s => X s i) + l.count t := by
    intro l hl hn
    induction l with
    | nil => simp
    | cons s l ih =>
      have := ih (fun s hs => hl s (List.mem_cons_of_mem _ hs)) (List.nodup_cons.1 hn).2
      simp only [List.countP_cons, List.count_cons, Function.comp, decide_eq_true_eq, beq_iff_eq]
      rcases lt_trichotomy (X s i) (X t i) with hlt | heq | hgt
      · simp only [hlt, hlt.le, if_true]; split <;> omega
      · have hst := hu s (hl s List.mem_cons_self) heq
        subst hst
        simp only [le_refl, lt_irrefl, if_true, if_false]
        omega
      · simp only [not_le.2 hgt, not_lt.2 hgt.le, if_false]; split <;> omega
  have h1 := hsplit (List.range nrow) (fun s hs => List.mem_range.1 hs) List.nodup_range
  have hc : (List.range nrow).count t ≤ 1 := List.nodup_iff_count_le_one.1 List.nodup_range t
  have h2 := hr.1
  have h3 := hr.2
  unfold column at h2 h3 ⊢
  rw [List.countP_map] at h2 h3 ⊢
  omega

/-- The filters only look at columns and ranks inside the image. -/
theorem rsFilter_inside (nrow ncol size dim : Nat) (hc : 0 < ncol) (S S' : Nat → Nat → K)
    (h : ∀ i < ncol, ∀ r < nrow, S i r = S' i r) (i r : Nat) (hr : r < nrow) :
    rsFilter nrow ncol size dim S i r = rsFilter nrow ncol size dim S' i r := by
  unfold rsFilter
  split
  · unfold medianCols
    simp only [h _ (reflect_lt hc _) r hr]
  · unfold Corr.scipyMedian Corr.scipyWindow
    simp only [h _ (reflect_lt hc _) _ (reflect_lt (by omega : 0 < nrow) _)]

theorem sortedImage_perm (nrow : Nat) (X X' : Nat → Nat → K) (i : Nat)
    (h : (column nrow X' i).Perm (column nrow X i)) (r : Nat) : sortedImage nrow X' i r = sortedImage nrow X i r := by
  unfold sortedImage
  rw [List.Perm.eq_of_pairwise' (pairwise_sortL _) (pairwise_sortL _)
    (((perm_sortL _).trans h).trans (perm_sortL _).symm)]

/-- **C198** The sorting-based method sees the other columns only through the values in them, whatever projections they
come from: reordering every column in its own way changes nothing for a pixel whose value is unique in its column. -/
theorem rs_sort_columns_partial (ag ag' : Argsort K) (nrow ncol size dim : Nat) (X X' : Nat → Nat → K)
    (h : ∀ j < ncol, (column nrow X' j).Perm (column nrow X j)) (i t t' : Nat) (hi : i < ncol) (ht : t < nrow)
    (ht' : t' < nrow) (hu : Unique nrow X t i) (he : X' t' i = X t i) :
    rsSort ag' nrow ncol size dim X' t' i = rsSort ag nrow ncol size dim X t i := by
  obtain ⟨ρ, h1, _, h3⟩ := rs_sort_value ag (rsFilter nrow ncol size dim) nrow X
    (fun S S' hS i r hr => rsFilter_local nrow ncol size dim S S' hS i r hr) i
  obtain ⟨ρ', h1', _, h3'⟩ := rs_sort_value ag' (rsFilter nrow ncol size dim) nrow X'
    (fun S S' hS i r hr => rsFilter_local nrow ncol size dim S S' hS i r hr) i
  obtain ⟨a1, _, a3⟩ := h3 t ht
  obtain ⟨b1, _, b3⟩ := h3' t' ht'
  unfold rsSort
  rw [a3, b3]
  have e1 := rank_unique nrow X t i ht hu (ρ t) a1
  have e2 := rank_unique nrow X t i ht hu (ρ' t') (he ▸ b1.perm (h i hi))
  rw [e2, ← e1]
  exact rsFilter_inside nrow ncol size dim (by omega) _ _ (fun j hj r _ => sortedImage_perm nrow X X' j (h j hj) r) i _
    (h1 t ht)

/-- **C198** Partial: with the projections in another order, the sorting-based method gives every pixel that is unique
in its column the same value.  Missing: pixels of equal value in one column (`rs_sort_reordered_fails`), for which only
`rs_sort_pairs` holds. -/
theorem rs_sort_reordered_partial (ag : Argsort K) (nrow ncol size dim : Nat) (X : Nat → Nat → K) (π : Nat → Nat)
    (hπ : Reorders nrow π) (i t : Nat) (hi : i < ncol) (ht : t < nrow) (hu : Unique nrow X (π t) i) :
    rsSort ag nrow ncol size dim (fun t i => X (π t) i) t i = rsSort ag nrow ncol size dim X (π t) i := by
  refine rs_sort_columns_partial ag ag nrow ncol size dim X _ (fun j _ => ?_) i (π t) t hi (hπ.1 t ht) ht hu rfl
  have := (map_reorders hπ).map fun t => X t j
  rw [List.map_map] at this
  exact this

/-- **C198** In any case the pixels of a column and their new values are the same pairs, in another order: reordering
projections can only exchange the new values of pixels that were equal. -/
theorem rs_sort_pairs (ag ag' : Argsort K) (nrow ncol size dim : Nat) (X X' : Nat → Nat → K)
    (h : ∀ j < ncol, (column nrow X' j).Perm (column nrow X j)) (i : Nat) (hi : i < ncol) :
    ((List.range nrow).map fun t => (X' t i, rsSort ag' nrow ncol size dim X' t i)).Perm
      ((List.range nrow).map fun t => (X t i, rsSort ag nrow ncol size dim X t i)) := by
  have key : ∀ (ag : Argsort K) (X : Nat → Nat → K),
      ((List.range nrow).map fun t => (X t i, rsSort ag nrow ncol size dim X t i)).Perm
      ((List.range nrow).map fun r =>
        (sortedImage nrow X i r, rsFilter nrow ncol size dim (sortedImage nrow X) i r)) := by
    intro ag X
    obtain ⟨ρ, h1, h2, h3⟩ := rs_sort_value ag (rsFilter nrow ncol size dim) nrow X
      (fun S S' hS i r hr => rsFilter_local nrow ncol size dim S S' hS i r hr) i
    have := (map_reorders ⟨h1, h2⟩).map fun r =>
      (sortedImage nrow X i r, rsFilter nrow ncol size dim (sortedImage nrow X) i r)
    rw [List.map_map] at this
    refine List.Perm.trans (List.Perm.of_eq ?_) this
    refine List.map_congr_left fun t ht => ?_
    obtain ⟨_, e2, e3⟩ := h3 t (List.mem_range.1 ht)
    simp only [Function.comp, e2]
    unfold rsSort
    rw [e3]
  refine (key ag' X').trans (List.Perm.trans (List.Perm.of_eq ?_) (key ag X).symm)
  refine List.map_congr_left fun r hr => ?_
  rw [sortedImage_perm nrow X X' i (h i hi) r, rsFilter_inside nrow ncol size dim (by omega) _ _
    (fun j hj r _ => sortedImage_perm nrow X X' j (h j hj) r) i r (List.mem_range.1 hr)]

/-- **C198** Refutation: pixels of equal value are told apart by their place in the scan.  With two projections exchanged
the first of them gets 9 in a column where it gets 1 otherwise. -/
theorem rs_sort_reordered_fails :
    Reorders 2 (fun t => 1 - t) ∧ rsSort argsortUp 2 3 3 1 tieSino 0 1 = 1 ∧
      rsSort argsortUp 2 3 3 1 (fun t i => tieSino (1 - t) i) 1 1 = 9 := by
  refine ⟨⟨fun t ht => by dsimp only; omega, fun t ht t' ht' h => by dsimp only at h; omega⟩, ?_, ?_⟩ <;> decide +kernel

/-! ### Mirrored scans -/

theorem reflect_mirror (n : Nat) (hn : 0 < n) (k : Int) :
    Corr.reflect n ((n : Int) - 1 - k) = n - 1 - Corr.reflect n k := by
  unfold Corr.reflect
  dsimp only
  have h1 := Int.emod_add_mul_ediv k (2 * n)
  have h2 := Int.emod_nonneg k (show (2 * (n : Int)) ≠ 0 by omega)
  have h3 := Int.emod_lt_of_pos k (show 0 < 2 * (n : Int) by omega)
  set q := k / (2 * (n : Int))
  set m := k % (2 * (n : Int))
  by_cases hm : m < n
  · have e : ((n : Int) - 1 - k) % (2 * n) = n - 1 - m := by
      have : (n : Int) - 1 - k = (n - 1 - m) + (2 * n) * (-q) := by rw [← h1]; ring
      rw [this, Int.add_mul_emod_self_left]
      exact Int.emod_eq_of_lt (by omega) (by omega)
    rw [e]
    split <;> split <;> omega
  · have e : ((n : Int) - 1 - k) % (2 * n) = 3 * n - 1 - m := by
      have : (n : Int) - 1 - k = (3 * n - 1 - m) + (2 * n) * (-q - 1) := by rw [← h1]; ring
      rw [this, Int.add_mul_emod_self_left]
      exact Int.emod_eq_of_lt (by omega) (by omega)
    rw [e]
    split <;> split <;> omega

theorem sortL_perm_eq {l l' : List K} (h : l.Perm l') : sortL l = sortL l' :=
  List.Perm.eq_of_pairwise' (pairwise_sortL _) (pairwise_sortL _) (((perm_sortL _).trans h).trans (perm_sortL _).symm)

theorem range_reverse_map {β : Type} (n : Nat) (f : Nat → β) :
    ((List.range n).map f).Perm ((List.range n).map fun a => f (n - 1 - a)) := by
  have : Reorders n (fun a => n - 1 - a) := ⟨fun t ht => by dsimp only; omega, fun t ht t' ht' h => by dsimp only at h; omega⟩
  have := ((map_reorders this).map f).symm
  rwa [List.map_map] at this

theorem window_mirror (ncol size i a : Nat) (ho : size % 2 = 1) (hi : i < ncol) (ha : a < size) :
    Corr.reflect ncol (((ncol - 1 - i : Nat) : Int) + (size - 1 - a : Nat) - (size / 2 : Nat))
      = ncol - 1 - Corr.reflect ncol ((i : Int) + a - (size / 2 : Nat)) := by
  rw [← reflect_mirror ncol (by omega)]
  congr 1
  omega

theorem rsFilter_mirror (nrow ncol size dim : Nat) (ho : size % 2 = 1) (S S' : Nat → Nat → K)
    (h : ∀ i < ncol, ∀ r, S' i r = S (ncol - 1 - i) r) (i r : Nat) (hi : i < ncol) :
    rsFilter nrow ncol size dim S' i r = rsFilter nrow ncol size dim S (ncol - 1 - i) r := by
  have hc : 0 < ncol := by omega
  unfold rsFilter
  split
  · unfold medianCols
    congr 1
    refine sortL_perm_eq (List.Perm.trans (List.Perm.of_eq ?_) (range_reverse_map size _).symm)
    refine List.map_congr_left fun a ha => ?_
    rw [h _ (reflect_lt hc _), window_mirror ncol size i a ho hi (List.mem_range.1 ha)]
  · unfold Corr.scipyMedian Corr.scipyWindow
    congr 1
    refine sortL_perm_eq ?_
    rw [List.flatMap_def, List.flatMap_def]
    refine List.Perm.flatten ?_
    refine List.Perm.trans (List.Perm.of_eq ?_) (range_reverse_map size _).symm
    refine List.map_congr_left fun a ha => ?_
    refine List.map_congr_left fun b _ => ?_
    rw [h _ (reflect_lt hc _), window_mirror ncol size i a ho hi (List.mem_range.1 ha)]

/-- **C198** With an odd window the sorting-based method of a scan mirrored left to right is the mirrored result, for
both filters and however ties are sorted. -/
theorem rs_sort_mirrored_partial (ag : Argsort K) (nrow ncol size dim : Nat) (ho : size % 2 = 1) (X : Nat → Nat → K)
    (t i : Nat) (hi : i < ncol) :
    rsSort ag nrow ncol size dim (fun t i => X t (ncol - 1 - i)) t i = rsSort ag nrow ncol size dim X t (ncol - 1 - i) := by
  unfold rsSort rsSortWith
  dsimp only
  refine congrArg (fun l => ((sortByIndex ag l).getD t (0, 0)).2) ?_
  refine List.ext_getElem? fun r => ?_
  simp only [List.getElem?_mapIdx]
  congr 1
  funext p
  congr 1
  apply rsFilter_mirror nrow ncol size dim ho (K := K) _ _ _ i r hi
  intro _ _ _
  rfl

/-- A ramp of one projection and 600 columns. -/
def rampWide : Nat → Nat → ℚ := fun _ i => i

/-- **C198** Refutation: the default window of a scan 600 columns wide has six columns and reaches further to the left
than to the right; mirrored, the method gives another result. -/
theorem rs_sort_mirrored_fails :
    rsSize 600 none = 6 ∧ rsSort argsortUp 1 600 (rsSize 600 none) 1 rampWide 0 299 = 299 ∧
      rsSort argsortUp 1 600 (rsSize 600 none) 1 (fun t i => rampWide t (599 - i)) 0 300 = 300 := by
  refine ⟨by decide, ?_, ?_⟩ <;> decide +kernel

end Sorting

/-! ### remove_stripe_sf -/

section Sf
variable {K : Type} [Field K]

/-- **C198** `remove_stripe_sf` does not see the order of the projections: reordered projections give the reordered
result. -/
theorem sf_reordered [CharZero K] (dx dy dz size : Nat) (h1 : 1 ≤ size) (X : Nat → Nat → Nat → K) (π : Nat → Nat)
    (hπ : Reorders dx π) (m m' : SfCell → Option K) (hX : HoldsStack ⟨dx, dy, dz, size⟩ m X)
    (hX' : HoldsStack ⟨dx, dy, dz, size⟩ m' fun s p j => X s (π p) j) :
    ∀ s < dy, ∀ p < dx, ∀ j < dz, (sfProg ⟨dx, dy, dz, size⟩).run m' (.data (j + s * dz + p * dy * dz))
        = (sfProg ⟨dx, dy, dz, size⟩).run m (.data (j + s * dz + π p * dy * dz)) := by
  intro s hs p hp j hj
  have e : ∀ k, colMean dx (fun p j => X s (π p) j) k = colMean dx (X s) k := by
    intro k
    unfold colMean
    congr 1
    refine Finset.sum_bij (fun p _ => π p) (fun p hp => Finset.mem_range.2 (hπ.1 p (Finset.mem_range.1 hp)))
      (fun a ha b hb hab => hπ.2 a (Finset.mem_range.1 ha) b (Finset.mem_range.1 hb) hab) ?_ (fun _ _ => rfl)
    intro b hb
    have := (map_reorders hπ).mem_iff.2 (List.mem_range.2 (Finset.mem_range.1 hb))
    obtain ⟨a, ha, rfl⟩ := List.mem_map.1 this
    exact ⟨a, Finset.mem_range.2 (List.mem_range.1 ha), rfl⟩
  rw [sf_result dx dy dz size h1 X m hX s hs (π p) (hπ.1 p hp) j hj,
    sf_result dx dy dz size h1 _ m' hX' s hs p hp j hj]
  dsimp only
  rw [e]
  have e2 : smoothMean dx dz size (fun p j => X s (π p) j) j = smoothMean dx dz size (X s) j := by
    unfold smoothMean
    simp only [e]
  rw [e2]

end Sf

/-! Concrete cases. -/

example : Reorders 3 (fun t => 2 - t) ∧ Unique 2 tieSino 0 0 ∧ ¬ Unique 2 tieSino 0 1 := by
  refine ⟨⟨fun t ht => by dsimp only; omega, fun t ht t' ht' h => by dsimp only at h; omega⟩, ?_, ?_⟩
  · intro s hs h
    rcases (show s = 0 ∨ s = 1 by omega) with rfl | rfl
    · rfl
    · exact absurd h (by decide +kernel)
  · intro h
    exact absurd (h 1 (by decide) (by decide +kernel)) (by decide)

example : ∃ m : SfCell → Option ℚ, HoldsStack ⟨2, 1, 2, 3⟩ m (fun _ p j => p * 2 + j) :=
  ⟨fun c => match c with
    | .data a => some (a : ℚ)
    | _ => none, fun s hs p hp j hj => by
      have : s = 0 := by simpa using hs
      subst this
      simp
      ring⟩

end Tomopy.Sym
