import Verif.Corr.FiltModel
import Verif.Corr.Props
import Verif.Dtype.Props
import Mathlib.Data.List.InsertIdx
import Mathlib.Data.List.GetD

/-!
# C100, C101: slice-wise filters
-/

set_option linter.unusedSectionVars false

namespace Tomopy.Corr.Filt

open Tomopy.Num

theorem mem_allIdx {shape idx : List Nat} : idx ∈ allIdx shape ↔ Dtype.InShape shape idx := by
  unfold Dtype.InShape
  induction shape generalizing idx with
  | nil => simp [allIdx]
  | cons n s ih =>
    simp only [allIdx, List.mem_flatMap, List.mem_range, List.mem_map]
    constructor
    · rintro ⟨i, hi, t, ht, rfl⟩
      exact List.Forall₂.cons hi (ih.mp ht)
    · intro h
      cases h with
      | cons hi ht => exact ⟨_, hi, _, ih.mpr ht, rfl⟩

theorem inShape_eraseIdx {shape idx : List Nat} (h : Dtype.InShape shape idx) (k : Nat) :
    Dtype.InShape (shape.eraseIdx k) (idx.eraseIdx k) := by
  unfold Dtype.InShape at *
  induction h generalizing k with
  | nil => simp
  | cons hi _ ih =>
    cases k with
    | zero => simpa
    | succ k => simpa [hi] using ih k

theorem insertIdx_eraseIdx {idx : List Nat} {k : Nat} (hk : k < idx.length) :
    (idx.eraseIdx k).insertIdx k (idx.getD k 0) = idx := by
  rw [List.getD_eq_getElem _ _ hk]
  exact List.insertIdx_eraseIdx_getElem hk

/-- Writes of equal cells agree. -/
def Consistent {K : Type} (ws : List (List Nat × K)) : Prop :=
  ∀ w ∈ ws, ∀ w' ∈ ws, w.1 = w'.1 → w.2 = w'.2

theorem foldl_writes {K : Type} (ws : List (List Nat × K)) (out : List Nat → Option K)
    (idx : List Nat) :
    (∀ w ∈ ws, w.1 ≠ idx) ∧
        ws.foldl (fun out w => fun idx => if idx = w.1 then some w.2 else out idx) out idx = out idx ∨
      ∃ w ∈ ws, w.1 = idx ∧
        ws.foldl (fun out w => fun idx => if idx = w.1 then some w.2 else out idx) out idx
          = some w.2 := by
  induction ws generalizing out with
  | nil => exact .inl ⟨by simp, rfl⟩
  | cons w ws ih =>
    rcases ih (fun i => if i = w.1 then some w.2 else out i) with ⟨h1, h2⟩ | ⟨w', hw', h1, h2⟩
    · by_cases hw : idx = w.1
      · exact .inr ⟨w, by simp, hw.symm, by rw [List.foldl_cons, h2, if_pos hw]⟩
      · refine .inl ⟨?_, by rw [List.foldl_cons, h2, if_neg hw]⟩
        intro v hv
        rcases List.mem_cons.mp hv with rfl | hv
        · exact fun h => hw h.symm
        · exact h1 v hv
    · exact .inr ⟨w', by simp [hw'], h1, by rw [List.foldl_cons, h2]⟩

theorem applyWrites_of_mem {K : Type} (ws : List (List Nat × K)) (hc : Consistent ws)
    {idx : List Nat} {v : K} (h : (idx, v) ∈ ws) : applyWrites ws idx = some v := by
  rcases foldl_writes ws (fun _ => none) idx with ⟨h1, _⟩ | ⟨w, hw, h1, h2⟩
  · exact absurd rfl (h1 _ h)
  · rw [applyWrites, h2, hc w hw _ h h1]

section Run

variable {K : Type} (f : Filter K) (a : Nd K)

theorem mem_taskWrites {k i : Nat} {w : List Nat × K} :
    w ∈ taskWrites f a k i ↔ ∃ r, f (slab a k i) = .ok r ∧
      ∃ idx, Dtype.InShape (a.shape.eraseIdx k) idx ∧ w = (idx.insertIdx k i, r idx) := by
  unfold taskWrites
  cases hf : f (slab a k i) with
  | error e => simp
  | ok r =>
    simp only [List.mem_map, mem_allIdx, slab]
    constructor
    · rintro ⟨idx, h1, rfl⟩
      exact ⟨r, rfl, idx, h1, rfl⟩
    · rintro ⟨r', hr, idx, h1, rfl⟩
      cases hr
      exact ⟨idx, h1, rfl⟩

theorem poolWrites_consistent {k : Nat} (hk : k < a.shape.length) :
    Consistent (poolWrites f a k) := by
  have key : ∀ i i' (j j' : List Nat), Dtype.InShape (a.shape.eraseIdx k) j →
      Dtype.InShape (a.shape.eraseIdx k) j' → j.insertIdx k i = j'.insertIdx k i' →
      i = i' ∧ j = j' := by
    intro i i' j j' hj hj' he
    have l1 : k ≤ j.length := by
      have := hj.length_eq
      rw [List.length_eraseIdx_of_lt hk] at this
      omega
    have l2 : k ≤ j'.length := by
      have := hj'.length_eq
      rw [List.length_eraseIdx_of_lt hk] at this
      omega
    refine ⟨?_, ?_⟩
    · have h1 : (j.insertIdx k i)[k]? = some i := by
        rw [List.getElem?_insertIdx_self, if_pos l1]
      have h2 : (j'.insertIdx k i')[k]? = some i' := by
        rw [List.getElem?_insertIdx_self, if_pos l2]
      rw [he, h2] at h1
      exact (Option.some.inj h1).symm
    · have h1 := congrArg (List.eraseIdx · k) he
      simpa [List.eraseIdx_insertIdx_self] using h1
  rintro w hw w' hw' he
  simp only [poolWrites, List.mem_flatMap, List.mem_range] at hw hw'
  obtain ⟨i, _, hw⟩ := hw
  obtain ⟨i', _, hw'⟩ := hw'
  obtain ⟨r, hr, j, hj, rfl⟩ := (mem_taskWrites f a).mp hw
  obtain ⟨r', hr', j', hj', rfl⟩ := (mem_taskWrites f a).mp hw'
  obtain ⟨rfl, rfl⟩ := key i i' j j' hj hj' he
  rw [hr] at hr'
  cases hr'
  rfl

theorem axisOf_lt {ndim : Nat} {axis : Int} {k : Nat} (h : axisOf ndim axis = .ok k) : k < ndim := by
  unfold axisOf at h
  split at h
  · cases h; omega
  · split at h
    · cases h; omega
    · cases h

/-- **C100.** Every run of a slice-wise filter, however its threads interleave, returns the filtered
slices: the element at `idx` is that of the filtered slice with number `idx[axis]`. -/
theorem slice_filter_value {axis : Int} {k : Nat} (hax : axisOf a.shape.length axis = .ok k)
    (r : Nat → List Nat → K) (hf : ∀ i < a.shape.getD k 0, f (slab a k i) = .ok (r i))
    {res : Except PyErr (List Nat → Option K)} (hrun : Run f a axis res) :
    ∃ out, res = .ok out ∧ ∀ idx, Dtype.InShape a.shape idx →
      out idx = some (r (idx.getD k 0) (idx.eraseIdx k)) := by
  have hk := axisOf_lt hax
  cases hrun with
  | raised he => rw [hax] at he; cases he
  | @done k' ws hk' hws =>
    rw [hax] at hk'
    cases hk'
    refine ⟨_, rfl, fun idx hidx => ?_⟩
    have hl : k < idx.length := by rw [hidx.length_eq]; exact hk
    have hc : Consistent ws := by
      intro w hw w' hw' he
      exact poolWrites_consistent f a hk w (hws.mem_iff.mp hw) w' (hws.mem_iff.mp hw') he
    refine applyWrites_of_mem ws hc (hws.mem_iff.mpr ?_)
    simp only [poolWrites, List.mem_flatMap, List.mem_range]
    have hlt : idx.getD k 0 < a.shape.getD k 0 := by
      rw [List.getD_eq_getElem _ _ hl, List.getD_eq_getElem _ _ hk]
      exact (List.forall₂_iff_get.mp hidx).2 k hl hk
    refine ⟨idx.getD k 0, hlt, (mem_taskWrites f a).mpr ⟨r (idx.getD k 0), hf _ hlt, idx.eraseIdx k,
      inShape_eraseIdx hidx k, ?_⟩⟩
    rw [insertIdx_eraseIdx hl]

/-- There is a run for every input. -/
theorem slice_filter_exists (axis : Int) : ∃ res, Run f a axis res := by
  cases h : axisOf a.shape.length axis with
  | error e => exact ⟨_, .raised h⟩
  | ok k => exact ⟨_, .done h (List.Perm.refl _)⟩

/-- An axis that the array does not have raises IndexError. -/
theorem slice_filter_axis {axis : Int} (h : axis < -(a.shape.length : Int) ∨ (a.shape.length : Int) ≤ axis)
    {res : Except PyErr (List Nat → Option K)} (hrun : Run f a axis res) : res = .error .index := by
  have hax : axisOf a.shape.length axis = .error .index := by
    unfold axisOf
    rw [if_neg (by omega), if_neg (by omega)]
  cases hrun with
  | raised he => rw [hax] at he; cases he; rfl
  | done hk _ => rw [hax] at hk; cases hk

/-- Negative axes count from the end. -/
theorem axisOf_neg (ndim : Nat) (k : Nat) (hk : k < ndim) :
    axisOf ndim (k : Int) = .ok k ∧ axisOf ndim ((k : Int) - ndim) = .ok k := by
  unfold axisOf
  constructor
  · rw [if_pos (by omega)]; simp
  · rw [if_neg (by omega), if_pos (by omega)]
    simp

/-- REFUTED: a filter that fails is reported.  If `scipy` raises for the slices, no exception is
raised and what is returned is uninitialised memory. -/
theorem slice_filter_swallows {axis : Int} {k : Nat} (hax : axisOf a.shape.length axis = .ok k)
    (hf : ∀ i, ∃ e, f (slab a k i) = .error e)
    {res : Except PyErr (List Nat → Option K)} (hrun : Run f a axis res) :
    res = .ok fun _ => none := by
  cases hrun with
  | raised he => rw [hax] at he; cases he
  | @done k' ws hk' hws =>
    rw [hax] at hk'
    cases hk'
    have : poolWrites f a k = [] := by
      rw [poolWrites, List.flatMap_eq_nil_iff]
      intro i _
      obtain ⟨e, he⟩ := hf i
      simp [taskWrites, he]
    rw [this] at hws
    rw [hws.eq_nil]
    rfl

end Run

section Median

variable {K : Type} [Field K] [LinearOrder K] [IsStrictOrderedRing K]

/-- The plane through an element perpendicular to an axis of a 3D array. -/
def plane (a : Nd K) (axis z y x : Nat) : Nat → Nat → K :=
  match axis with
  | 0 => fun r c => a.get [z, r, c]
  | 1 => fun r c => a.get [r, y, c]
  | _ => fun r c => a.get [r, c, x]

/-- **C100.** `median_filter`: each element becomes the median of the square around it in its slice,
with the slice reflected at its borders. -/
theorem median_filter_value (a : Nd K) (n0 n1 n2 : Nat) (hs : a.shape = [n0, n1, n2]) (size : Nat)
    (hsize : 0 < size) (k : Nat) (hk : k < 3) {res : Except PyErr (List Nat → Option K)}
    (hrun : Run (medianF size) a k res) :
    ∃ out, res = .ok out ∧ ∀ z < n0, ∀ y < n1, ∀ x < n2, ∃ m, out [z, y, x] = some m ∧
      IsRank (match k with
        | 0 => scipyWindow n1 n2 size (plane a 0 z y x) y x
        | 1 => scipyWindow n0 n2 size (plane a 1 z y x) z x
        | _ => scipyWindow n0 n1 size (plane a 2 z y x) z y) (size * size / 2) m := by
  have hax : axisOf a.shape.length (k : Int) = .ok k := (axisOf_neg _ k (by rw [hs]; exact hk)).1
  have hin : ∀ z < n0, ∀ y < n1, ∀ x < n2, Dtype.InShape a.shape [z, y, x] := by
    intro z hz y hy x hx; rw [hs]; simp [Dtype.InShape, hz, hy, hx]
  have h3 : k = 0 ∨ k = 1 ∨ k = 2 := by omega
  rcases h3 with rfl | rfl | rfl
  · obtain ⟨out, ho, hv⟩ := slice_filter_value (medianF size) a hax
      (fun i idx => scipyMedian n1 n2 size (fun y x => a.get [i, y, x]) (idx.getD 0 0) (idx.getD 1 0))
      (fun i _ => by simp [medianF, slab, hs, Nat.ne_of_gt hsize]) hrun
    refine ⟨out, ho, fun z hz y hy x hx => ⟨_, hv _ (hin z hz y hy x hx), ?_⟩⟩
    exact scipyMedian_isRank _ _ _ hsize _ _ _
  · obtain ⟨out, ho, hv⟩ := slice_filter_value (medianF size) a hax
      (fun i idx => scipyMedian n0 n2 size (fun y x => a.get [y, i, x]) (idx.getD 0 0) (idx.getD 1 0))
      (fun i _ => by simp [medianF, slab, hs, Nat.ne_of_gt hsize]) hrun
    refine ⟨out, ho, fun z hz y hy x hx => ⟨_, hv _ (hin z hz y hy x hx), ?_⟩⟩
    exact scipyMedian_isRank _ _ _ hsize _ _ _
  · obtain ⟨out, ho, hv⟩ := slice_filter_value (medianF size) a hax
      (fun i idx => scipyMedian n0 n1 size (fun y x => a.get [y, x, i]) (idx.getD 0 0) (idx.getD 1 0))
      (fun i _ => by simp [medianF, slab, hs, Nat.ne_of_gt hsize]) hrun
    refine ⟨out, ho, fun z hz y hy x hx => ⟨_, hv _ (hin z hz y hy x hx), ?_⟩⟩
    exact scipyMedian_isRank _ _ _ hsize _ _ _

/-- REFUTED: `median_filter` of an array that is not three-dimensional, or with size 0, raises.  It
returns uninitialised memory. -/
theorem median_filter_garbage (a : Nd K) (size : Nat) (k : Nat) (hk : k < a.shape.length)
    (hbad : a.shape.length ≠ 3 ∨ size = 0) {res : Except PyErr (List Nat → Option K)}
    (hrun : Run (medianF size) a k res) : res = .ok fun _ => none := by
  refine slice_filter_swallows _ a (axisOf_neg _ k hk).1 (fun i => ⟨.runtime, ?_⟩) hrun
  have hl : (slab a k i).shape.length = a.shape.length - 1 := by
    simp [slab, List.length_eraseIdx_of_lt hk]
  unfold medianF
  split
  · rename_i h w he
    rcases hbad with hb | hb
    · rw [he] at hl; simp at hl; omega
    · rw [if_pos hb]
  · rfl

/-- `gaussian_filter`: slice by slice what `scipy` computes, for one `sigma` or one per dimension of
the slices … -/
theorem gaussian_filter_value (g : List K → Nd K → List Nat → K) (a : Nd K) (sigma : K ⊕ List K)
    (k : Nat) (hk : k < a.shape.length) (hs : ∀ ss, sigma = .inr ss → ss.length = a.shape.length - 1)
    {res : Except PyErr (List Nat → Option K)} (hrun : Run (gaussF g sigma) a k res) :
    ∃ out, res = .ok out ∧ ∀ idx, Dtype.InShape a.shape idx →
      out idx = some (g (match sigma with
        | .inl s => List.replicate (a.shape.length - 1) s
        | .inr ss => ss) (slab a k (idx.getD k 0)) (idx.eraseIdx k)) := by
  have hl : ∀ i, (slab a k i).shape.length = a.shape.length - 1 := fun i => by
    simp [slab, List.length_eraseIdx_of_lt hk]
  refine slice_filter_value _ a (axisOf_neg _ k hk).1
    (fun i => g (match sigma with
        | .inl s => List.replicate (a.shape.length - 1) s
        | .inr ss => ss) (slab a k i)) (fun i _ => ?_) hrun
  unfold gaussF
  cases sigma with
  | inl s => simp only [hl]
  | inr ss => simp only [hl, hs ss rfl, if_true]

/-- … but with one `sigma` per dimension of the array, as documented ("for each axis"), nothing is
computed and nothing reported.  REFUTED for sequences of that length. -/
theorem gaussian_filter_garbage (g : List K → Nd K → List Nat → K) (a : Nd K) (ss : List K)
    (k : Nat) (hk : k < a.shape.length) (hs : ss.length ≠ a.shape.length - 1)
    {res : Except PyErr (List Nat → Option K)} (hrun : Run (gaussF g (.inr ss)) a k res) :
    res = .ok fun _ => none := by
  have hl : ∀ i, (slab a k i).shape.length = a.shape.length - 1 := fun i => by
    simp [slab, List.length_eraseIdx_of_lt hk]
  refine slice_filter_swallows _ a (axisOf_neg _ k hk).1 (fun i => ⟨.runtime, ?_⟩) hrun
  simp only [gaussF, hl, if_neg hs]

/-- REFUTED: `sobel_filter` returns the filtered array.  It raises NameError for every array with a
slice to filter. -/
theorem sobel_raises (a : Nd K) (k : Nat) (hk : k < a.shape.length) (hn : 0 < a.shape.getD k 0) :
    sobelFilter a k = .error .name := by
  rw [sobelFilter, (axisOf_neg _ k hk).1]
  dsimp only
  rw [if_neg (by omega)]

end Median

-- a 2×1×3 array, filtered along axis 0 and along the last axis
example : (applyWrites (poolWrites (medianF 3) (⟨[2, 1, 3], fun
      | [0, _, x] => [(1 : ℚ), 9, 2].getD x 0
      | [_, _, x] => [(5 : ℚ), 4, 7].getD x 0
      | _ => 0⟩ : Nd ℚ) 0)) [0, 0, 1] = some 2 ∧
    (applyWrites (poolWrites (medianF 3) (⟨[2, 1, 3], fun
      | [0, _, x] => [(1 : ℚ), 9, 2].getD x 0
      | [_, _, x] => [(5 : ℚ), 4, 7].getD x 0
      | _ => 0⟩ : Nd ℚ) 2)) [1, 0, 1] = some 4 := by
  decide +kernel

end Tomopy.Corr.Filt
