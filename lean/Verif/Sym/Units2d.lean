import Verif.Sym.Filters
import Verif.Sym.Median3d
import Verif.Corr.Filt2

/-! C203: the slice-wise median filters of data in other units. -/

set_option linter.unusedSectionVars false

namespace Tomopy.Sym
open Tomopy.Corr Tomopy.Num Tomopy.Corr.Filt

section
variable {K : Type} [LinearOrder K] [Field K] [IsStrictOrderedRing K]

/-- The stack with every value changed by `f`, the argument of the second call (no code of its own; passed to
`median_filter`, misc/corr.py:167-205). -/
def mapNd (f : K → K) (a : Nd K) : Nd K := ⟨a.shape, fun i => f (a.get i)⟩

theorem scipyWindow_map (h w size : Nat) (f : K → K) (img : Nat → Nat → K) (y x : Nat) :
    scipyWindow h w size (fun r c => f (img r c)) y x = (scipyWindow h w size img y x).map f := by
  unfold scipyWindow
  simp only [List.map_flatMap, List.map_map, Function.comp_def]

theorem odd_sq {size : Nat} (ho : size % 2 = 1) : size * size = 2 * (size * size / 2) + 1 := by
  have : size * size % 2 = 1 := by rw [Nat.mul_mod, ho]
  omega

/-- The value at the middle rank follows every increasing change of the values, and every decreasing one if the size is
odd. -/
theorem middle_map {h w size : Nat} {f : K → K} (hf : StrictMono f ∨ (StrictAnti f ∧ size % 2 = 1))
    {img : Nat → Nat → K} {y x : Nat} {m m' : K} (h1 : IsRank (scipyWindow h w size img y x) (size * size / 2) m)
    (h2 : IsRank (scipyWindow h w size (fun r c => f (img r c)) y x) (size * size / 2) m') : m' = f m := by
  rw [scipyWindow_map] at h2
  rcases hf with hf | ⟨hf, ho⟩
  · exact h2.unique (isRank_mono hf h1)
  · exact h2.unique (isRank_anti hf (by rw [length_scipyWindow]; exact odd_sq ho) h1)

/-- **C203** `median_filter` along any axis commutes with every strictly increasing change of the values, and with every
strictly decreasing one if the size is odd. -/
theorem median_filter_monotone (n0 n1 n2 size k : Nat) (hk : k < 3) (hs : 0 < size) (f : K → K)
    (hf : StrictMono f ∨ (StrictAnti f ∧ size % 2 = 1)) (a : Nd K) (ha : a.shape = [n0, n1, n2])
    (out out' : List Nat → Option K) (hr : Run (medianF size) a k (.ok out))
    (hr' : Run (medianF size) (mapNd f a) k (.ok out')) :
    ∀ z < n0, ∀ y < n1, ∀ x < n2, out' [z, y, x] = (out [z, y, x]).map f := by
  intro z hz y hy x hx
  obtain ⟨o, e, h⟩ := median_filter_value a n0 n1 n2 ha size hs k hk hr
  obtain ⟨o', e', h'⟩ := median_filter_value (mapNd f a) n0 n1 n2 ha size hs k hk hr'
  cases e
  cases e'
  obtain ⟨m, h1, h2⟩ := h z hz y hy x hx
  obtain ⟨m', h1', h2'⟩ := h' z hz y hy x hx
  rw [h1, h1', Option.map_some]
  congr 1
  rcases (by omega : k = 0 ∨ k = 1 ∨ k = 2) with rfl | rfl | rfl <;> exact middle_map hf h2 h2'

/-- Specification: `median_filter` (axis 0) of every negated stack is the negated result. -/
def MedianNegates (K : Type) [LinearOrder K] [Field K] [IsStrictOrderedRing K] (n h w size : Nat) : Prop :=
  ∀ (a : Nd K) (out out' : List Nat → Option K), a.shape = [n, h, w] →
    Run (medianF size) a 0 (.ok out) → Run (medianF size) (mapNd (fun t => -t) a) 0 (.ok out') →
    ∀ z < n, ∀ y < h, ∀ x < w, out' [z, y, x] = (out [z, y, x]).map fun t => -t

/-- Half of the window is zero and half is one: the filter takes the upper of the two middle values. -/
theorem half_median (h w k y : Nat) (hk : 0 < k) (hw : 2 * k ≤ w) (u v : K) (huv : u < v) :
    scipyMedian h w (2 * k) (fun _ c => if c < k then u else v) y k = v ∧
      scipyMedian h w (2 * k) (fun _ c => if c < k then v else u) y k = v := by
  have hq : 2 * k * (2 * k) / 2 = 2 * k * k := by
    rw [show 2 * k * (2 * k) = 2 * (2 * k * k) by ring]
    omega
  have col : ∀ b < 2 * k, reflect w ((k : Int) + b - (2 * k / 2 : Nat)) = b := by
    intro b hb
    rw [reflect_inside w _ (by omega) (by omega)]
    omega
  have key : ∀ (g : Nat → K) (q : Nat → Prop) [DecidablePred q], (∀ b < 2 * k, (g b < v ↔ q b)) → (∀ b, g b ≤ v) →
      (List.range (2 * k)).countP (fun b => decide (q b)) = k →
      scipyMedian h w (2 * k) (fun _ c => g c) y k = v := by
    intro g q _ hg hle hc
    refine (scipyMedian_isRank h w (2 * k) (by omega) _ y k).unique ⟨?_, ?_⟩
    · rw [countP_columns, hq]
      have e : ((List.range (2 * k)).countP fun (b : Nat) =>
          decide (g (reflect w ((k : Int) + b - (2 * k / 2 : Nat))) < v)) = k := by
        refine Eq.trans ?_ hc
        refine List.countP_congr fun b hb => ?_
        have hb := List.mem_range.1 hb
        rw [col b hb, decide_eq_true_eq, decide_eq_true_eq]
        exact hg b hb
      rw [e]
    · rw [countP_columns, hq]
      have e : ((List.range (2 * k)).countP fun (b : Nat) =>
          decide (g (reflect w ((k : Int) + b - (2 * k / 2 : Nat))) ≤ v)) = 2 * k := by
        have := List.countP_eq_length (l := List.range (2 * k)) (p := fun (b : Nat) =>
          decide (g (reflect w ((k : Int) + b - (2 * k / 2 : Nat))) ≤ v))
        rw [List.length_range] at this
        exact this.2 fun b _ => decide_eq_true (hle _)
      rw [e]
      exact Nat.mul_lt_mul_of_pos_left (by omega) (by omega)
  constructor
  · refine key (fun c => if c < k then u else v) (fun b => b < k) ?_ ?_ (by rw [countP_range_lt]; omega)
    · intro b _
      split
      · next h => exact ⟨fun _ => h, fun _ => huv⟩
      · next h => exact ⟨fun h' => absurd h' (lt_irrefl _), fun h' => absurd h' h⟩
    · intro b
      split
      · exact huv.le
      · exact le_refl _
  · refine key (fun c => if c < k then v else u) (fun b => k ≤ b) ?_ ?_ (by rw [countP_range_ge]; omega)
    · intro b _
      split
      · next h => exact ⟨fun h' => absurd h' (lt_irrefl _), fun h' => absurd h' (not_le.2 h)⟩
      · next h => exact ⟨fun _ => not_lt.1 h, fun _ => huv⟩
    · intro b
      split
      · exact le_refl _
      · exact huv.le

/-- **C203** For slices at least as wide as the window, `median_filter` commutes with negation exactly if the size is
odd: with an even size it takes the upper of the two middle values. -/
theorem median_filter_negates_iff (n h w size : Nat) (hn : 0 < n) (hh : 0 < h) (hs : 0 < size) (hw : size ≤ w) :
    MedianNegates K n h w size ↔ size % 2 = 1 := by
  constructor
  · intro hm
    by_contra hc
    obtain ⟨k, rfl⟩ : ∃ k, size = 2 * k := ⟨size / 2, by omega⟩
    have hk : 0 < k := by omega
    have run : ∀ a : Nd K, a.shape = [n, h, w] →
        Run (medianF (2 * k)) a 0 (.ok (applyWrites (poolWrites (medianF (2 * k)) a 0))) := fun a ha =>
      Run.done (k := 0) (by rw [ha]; rfl) (List.Perm.refl _)
    have val : ∀ (a : Nd K) (g : Nat → K) (x : Nat), a.shape = [n, h, w] →
        (∀ z y c, a.get [z, y, c] = g c) → x < w →
        applyWrites (poolWrites (medianF (2 * k)) a 0) [0, 0, x]
          = some (scipyMedian h w (2 * k) (fun _ c => g c) 0 x) := by
      intro a g x ha hg hx
      obtain ⟨o, h1, h2⟩ := median_filter_value a n h w ha (2 * k) hs 0 (by omega) (run _ ha)
      cases h1
      obtain ⟨m, hm1, hm2⟩ := h2 0 hn 0 hh x hx
      rw [hm1]
      congr 1
      have : plane a 0 0 0 x = fun _ c => g c := by
        funext r c
        exact hg 0 r c
      rw [← this]
      exact IsRank.unique hm2 (scipyMedian_isRank h w (2 * k) hs _ 0 x)
    have := hm ⟨[n, h, w], fun i => if i.getD 2 0 < k then 0 else 1⟩ _ _ rfl (run _ rfl) (run _ rfl) 0 hn 0 hh k (by omega)
    rw [val _ (fun c => if c < k then 0 else -1) k rfl ?_ (by omega),
      val _ (fun c => if c < k then 0 else 1) k rfl (fun _ _ _ => rfl) (by omega),
      (half_median h w k 0 hk hw 0 1 zero_lt_one).1, (half_median h w k 0 hk hw (-1) 0 (by simp)).2] at this
    · simp at this
    · intro z y c
      show -(if c < k then (0 : K) else 1) = _
      split <;> simp
  · intro ho a out out' ha hr hr' z hz y hy x hx
    exact median_filter_monotone n h w size 0 (by omega) hs (fun t => -t)
      (Or.inr ⟨fun s t h => neg_lt_neg h, ho⟩) a ha out out' hr hr' z hz y hy x hx

example : MedianNegates ℚ 1 2 9 3 ∧ ¬ MedianNegates ℚ 1 2 9 4 :=
  ⟨(median_filter_negates_iff 1 2 9 3 (by omega) (by omega) (by omega) (by omega)).2 rfl,
    fun h => by simpa using (median_filter_negates_iff 1 2 9 4 (by omega) (by omega) (by omega) (by omega)).1 h⟩

/-- **C203** `remove_outlier` commutes with every change of unit and offset if the threshold is given in the new unit,
for every size and number of cores. -/
theorem remove_outlier_affine (cpu cpu' n h w size : Nat) (hc : 0 < cpu) (hc' : 0 < cpu') (hs : 0 < size)
    (ncore ncore' : Option Nat) (dif a b : K) (ha : 0 < a) (arr : Nat → Nat → Nat → K)
    (out out' : Nat → Nat → Nat → Option K) (hr : removeOutlier cpu n h w size ncore dif arr = .ok out)
    (hr' : removeOutlier cpu' n h w size ncore' (a * dif) (fun z y x => a * arr z y x + b) = .ok out') :
    ∀ z < n, ∀ y x, out' z y x = (out z y x).map fun t => a * t + b := by
  intro z hz y x
  obtain ⟨o, h1, h2⟩ := remove_outlier_spec cpu n h w size hc (by omega) hs ncore dif arr
  obtain ⟨o', h1', h2'⟩ := remove_outlier_spec cpu' n h w size hc' (by omega) hs ncore' (a * dif)
    fun z y x => a * arr z y x + b
  rw [hr] at h1
  rw [hr'] at h1'
  cases h1
  cases h1'
  obtain ⟨m, v, r1, r2, r3, r4, _⟩ := h2 z hz y x
  obtain ⟨m', v', r1', r2', r3', r4', _⟩ := h2' z hz y x
  have hm : m' = a * m + b := middle_map (f := fun t => a * t + b) (Or.inl fun s t hst => by
    have := mul_lt_mul_of_pos_left hst ha
    dsimp only
    linarith) r1 r1'
  rw [r2, r2', Option.map_some]
  congr 1
  rw [hm, show a * arr z y x + b - (a * m + b) = a * (arr z y x - m) by ring] at r3' r4'
  rcases le_or_gt dif (arr z y x - m) with hd | hd
  · rw [r3 hd, r3' (mul_le_mul_of_nonneg_left hd ha.le)]
  · rw [r4 hd, r4' (mul_lt_mul_of_pos_left hd ha)]

example : ∃ out out', removeOutlier 4 2 5 6 2 none (1 : ℚ) (fun z y x => z + y * x) = .ok out ∧
    removeOutlier 2 2 5 6 2 (some 1) (3 * 1 : ℚ) (fun z y x => 3 * (z + y * x) + 5) = .ok out' ∧
    out' 1 2 3 = (out 1 2 3).map fun t => 3 * t + 5 := by
  obtain ⟨o, h, _⟩ := remove_outlier_spec 4 2 5 6 2 (by omega) (by omega) (by omega) none (1 : ℚ) fun z y x => z + y * x
  obtain ⟨o', h', _⟩ := remove_outlier_spec 2 2 5 6 2 (by omega) (by omega) (by omega) (some 1) (3 * 1 : ℚ)
    fun z y x => 3 * (z + y * x) + 5
  exact ⟨o, o', h, h', remove_outlier_affine 4 2 2 5 6 2 (by omega) (by omega) (by omega) none (some 1) 1 3 5 (by norm_num)
    _ o o' h h' 1 (by omega) 2 3⟩

/-- **C203** `remove_outlier1d` commutes with every change of unit and offset if the threshold is given in the new unit,
for every number of dimensions, axis and size; it raises for the same arrays. -/
theorem outlier1d_affine (t : Bool) (dif a b : K) (ha : 0 < a) (size axis : Nat) (arr : Nd K) :
    match removeOutlier1d t dif size axis arr,
      removeOutlier1d t (a * dif) size axis (mapNd (fun v => a * v + b) arr) with
    | .ok out, .ok out' => ∀ idx, out' idx = (out idx).map fun v => a * v + b
    | .error e, .error e' => e = e'
    | _, _ => False := by
  have hw : ∀ idx, mirrorWindow (mapNd (fun v => a * v + b) arr) axis size idx
      = (mirrorWindow arr axis size idx).map fun v => a * v + b := by
    intro idx
    unfold mirrorWindow
    rw [List.map_map]
    rfl
  have hf : StrictMono fun v : K => a * v + b := fun s t hst => by
    have := mul_lt_mul_of_pos_left hst ha
    dsimp only
    linarith
  have hmed : ∀ idx, 0 < size → (sortL (mirrorWindow (mapNd (fun v => a * v + b) arr) axis size idx)).getD (size / 2) 0
      = a * (sortL (mirrorWindow arr axis size idx)).getD (size / 2) 0 + b := by
    intro idx hs
    have hl : size / 2 < (mirrorWindow arr axis size idx).length := by
      unfold mirrorWindow
      rw [List.length_map, List.length_range]
      omega
    have hl' : size / 2 < ((mirrorWindow arr axis size idx).map fun v => a * v + b).length := by
      rw [List.length_map]
      exact hl
    rw [hw, getD_sortL _ hl, getD_sortL _ hl']
    exact (sortL_isRank _ _ _).unique (isRank_mono hf (sortL_isRank _ _ _))
  have hs : (mapNd (fun v => a * v + b) arr).shape = arr.shape := rfl
  unfold removeOutlier1d
  dsimp only
  rw [hs]
  by_cases h1 : (List.range arr.shape.length).filter (· ≠ axis) = []
  · rw [if_pos h1, if_pos h1]
  · rw [if_neg h1, if_neg h1]
    by_cases h2 : (((List.range arr.shape.length).filter (· ≠ axis)).map (arr.shape.getD · 0)).all (· = 0) = true
    · rw [if_pos h2, if_pos h2]
    · rw [if_neg h2, if_neg h2]
      by_cases h3 : t = false
      · rw [if_pos h3, if_pos h3]
      · rw [if_neg h3, if_neg h3]
        intro idx
        dsimp only
        by_cases h4 : size = 0
        · rw [if_pos h4, if_pos h4]
          rfl
        · rw [if_neg h4, if_neg h4, hmed idx (by omega), Option.map_some]
          congr 1
          obtain ⟨m, em⟩ : ∃ m, (sortL (mirrorWindow arr axis size idx)).getD (size / 2) 0 = m := ⟨_, rfl⟩
          rw [em]
          show outlierPix (a * dif) (a * arr.get idx + b) (a * m + b) = _
          unfold outlierPix
          rw [show a * arr.get idx + b - (a * m + b) = a * (arr.get idx - m) by ring]
          by_cases hd : arr.get idx - m ≥ dif
          · rw [if_pos hd, if_pos (mul_le_mul_of_nonneg_left hd ha.le)]
          · rw [if_neg hd, if_neg (not_le.2 (mul_lt_mul_of_pos_left (not_le.1 hd) ha))]

example : ∃ out, removeOutlier1d true (1 : ℚ) 3 0 ⟨[3, 1], fun idx => [2, 9, 3].getD (idx.getD 0 0) 0⟩ = .ok out ∧
    out [1, 0] = some 3 := ⟨_, rfl, by decide +kernel⟩

end

end Tomopy.Sym
