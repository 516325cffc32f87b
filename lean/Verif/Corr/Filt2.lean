import Verif.Corr.Filt
import Mathlib.Tactic.FieldSimp
import Mathlib.Tactic.Positivity

/-!
# C102–C105: `remove_outlier1d`, the GPU variants, and the enhancement of projections
-/

set_option linter.unusedSectionVars false

namespace Tomopy.Corr.Filt

open Tomopy.Num

variable {K : Type} [Field K] [LinearOrder K] [IsStrictOrderedRing K]

/-- Boundary mode 'mirror': indices inside stay, and the rest is the even continuation about the
first and the last sample. -/
theorem mirror_spec (n : Nat) (hn : 0 < n) :
    (∀ i : Int, mirror n i < n) ∧ (∀ i : Nat, i < n → mirror n i = i) ∧
    (∀ i : Int, mirror n (-i) = mirror n i) ∧
    (∀ i : Int, mirror n (i + (2 * n - 2)) = mirror n i) := by
  by_cases h1 : n = 1
  · subst h1
    refine ⟨fun i => by simp [mirror], fun i hi => by simp [mirror]; omega, fun i => by simp [mirror],
      fun i => by simp [mirror]⟩
  · have hm : ∀ i : Int, 0 ≤ i % (2 * n - 2) ∧ i % (2 * n - 2) < 2 * n - 2 := fun i =>
      ⟨Int.emod_nonneg _ (by omega), Int.emod_lt_of_pos _ (by omega)⟩
    refine ⟨fun i => ?_, fun i hi => ?_, fun i => ?_, fun i => ?_⟩
    · simp only [mirror, if_neg h1]
      have := hm i
      split <;> omega
    · simp only [mirror, if_neg h1]
      have : ((i : Int) % (2 * n - 2)) = i := Int.emod_eq_of_lt (by omega) (by omega)
      rw [this]
      simp [hi]
    · simp only [mirror, if_neg h1]
      have h3 := hm i
      have h4 := hm (-i)
      have h5 : (i % (2 * n - 2) = 0 ∧ (-i) % (2 * n - 2) = 0) ∨
          (-i) % (2 * n - 2) = (2 * n - 2) - i % (2 * n - 2) := by
        by_cases h0 : i % (2 * n - 2) = 0
        · left
          exact ⟨h0, by rw [Int.neg_emod, if_pos (Int.dvd_of_emod_eq_zero h0)]⟩
        · right
          rw [Int.neg_emod, if_neg (fun hd => h0 (Int.emod_eq_zero_of_dvd hd))]
          omega
      rcases h5 with ⟨h5, h6⟩ | h5
      · rw [h5, h6]
      · rw [h5]
        split <;> split <;> omega
    · simp only [mirror, if_neg h1, Int.add_emod_right]

/-- **C102.** With a numpy that takes a list of slices for a tuple, `remove_outlier1d` replaces
exactly the elements that exceed the median of their line by `dif` or more, by that median; the line
is continued evenly at its ends. -/
theorem outlier1d_value_partial (dif : K) (size axis : Nat) (a : Nd K) (hsize : 0 < size)
    (_hax : axis < a.shape.length) (hother : ∃ i, i < a.shape.length ∧ i ≠ axis ∧ 0 < a.shape.getD i 0) :
    ∃ out, removeOutlier1d true dif size axis a = .ok out ∧ ∀ idx, ∃ med v,
      IsRank ((List.range size).map fun (b : Nat) => a.get (idx.set axis (mirror (a.shape.getD axis 0)
        ((idx.getD axis 0 : Int) + b - (size / 2 : Nat))))) (size / 2) med ∧
      out idx = some v ∧ (dif ≤ a.get idx - med → v = med) ∧
      (a.get idx - med < dif → v = a.get idx) := by
  obtain ⟨i, hi, hia, hi0⟩ := hother
  have hmem : i ∈ (List.range a.shape.length).filter (· ≠ axis) := by simp [hi, hia]
  unfold removeOutlier1d
  dsimp only
  rw [if_neg (List.ne_nil_of_mem hmem), if_neg, if_neg (by simp)]
  · refine ⟨_, rfl, fun idx => ⟨(sortL (mirrorWindow a axis size idx)).getD (size / 2) 0, _, ?_,
      if_neg (by omega), ?_, ?_⟩⟩
    · have hk : size / 2 < (sortL (mirrorWindow a axis size idx)).length := by
        rw [length_sortL]; simp [mirrorWindow]; omega
      rw [List.getD_eq_getElem _ _ hk]
      exact sortL_isRank _ _ hk
    · intro hd; unfold outlierPix; rw [if_pos hd]
    · intro hd; unfold outlierPix; rw [if_neg (not_le.2 hd)]
  · rw [List.all_eq_true]
    intro hall
    have := hall _ (List.mem_map_of_mem hmem)
    simp only [decide_eq_true_eq] at this
    omega

example : removeOutlier1d true (1 : ℚ) 3 0 ⟨[3, 1], fun idx => [2, 9, 3].getD (idx.getD 0 0) 0⟩
    = .ok fun idx => some (outlierPix 1 ([2, 9, 3].getD (idx.getD 0 0) 0)
      ((sortL (mirrorWindow (K := ℚ) ⟨[3, 1], fun idx => [2, 9, 3].getD (idx.getD 0 0) 0⟩ 0 3 idx)).getD 1 0)) :=
  rfl

/-- REFUTED: `remove_outlier1d` returns the corrected array.  With numpy 1.23 or later it raises
IndexError for every array of two or more dimensions that has elements, whatever the arguments. -/
theorem outlier1d_raises (dif : K) (size axis : Nat) (a : Nd K)
    (hother : ∃ i, i < a.shape.length ∧ i ≠ axis ∧ 0 < a.shape.getD i 0) :
    removeOutlier1d false dif size axis a = .error .index := by
  obtain ⟨i, hi, hia, hi0⟩ := hother
  have hmem : i ∈ (List.range a.shape.length).filter (· ≠ axis) := by simp [hi, hia]
  unfold removeOutlier1d
  dsimp only
  rw [if_neg (List.ne_nil_of_mem hmem), if_neg, if_pos rfl]
  rw [List.all_eq_true]
  intro hall
  have := hall _ (List.mem_map_of_mem hmem)
  simp only [decide_eq_true_eq] at this
  omega

/-- REFUTED: a line can be filtered.  One-dimensional arrays raise ValueError with any numpy. -/
theorem outlier1d_line_raises (t : Bool) (dif : K) (size n : Nat) (get : List Nat → K) :
    removeOutlier1d t dif size 0 ⟨[n], get⟩ = .error .value := by
  unfold removeOutlier1d
  dsimp only
  rw [if_pos]
  simp

/-! ### GPU variants -/

/-- What the GPU is assumed to compute: the median of the square whose first corner is the pixel. -/
def GpuMedian (size : Nat) (gpu : Nat → Nat → (Nat → Nat → K) → Nat → Nat → K) : Prop :=
  ∀ h w p y x, IsRank ((List.range size).flatMap fun a => (List.range size).map fun b =>
    p (y + a) (x + b)) (size * size / 2) (gpu h w p y x)

/-- The same for outlier removal. -/
def GpuOutlier (size : Nat) (dif : K) (gpu : Nat → Nat → (Nat → Nat → K) → Nat → Nat → K) : Prop :=
  ∀ h w p y x, ∃ m, IsRank ((List.range size).flatMap fun a => (List.range size).map fun b =>
    p (y + a) (x + b)) (size * size / 2) m ∧
    gpu h w p y x = outlierPix dif (p (y + size / 2) (x + size / 2)) m

theorem padSym_window (h w size : Nat) (img : Nat → Nat → K) (y x : Nat) :
    ((List.range size).flatMap fun a => (List.range size).map fun b =>
      padSym h w size img (y + a) (x + b)) = scipyWindow h w size img y x := by
  unfold scipyWindow padSym
  refine List.flatMap_congr fun a _ => List.map_congr_left fun b _ => ?_
  push_cast
  rfl

theorem gpu_median (size : Nat) (hs : 0 < size) (gpu : Nat → Nat → (Nat → Nat → K) → Nat → Nat → K)
    (hg : GpuMedian size gpu) (h w : Nat) (img : Nat → Nat → K) (y x : Nat) :
    gpu h w (padSym h w size img) y x = scipyMedian h w size img y x := by
  have h1 := hg h w (padSym h w size img) y x
  rw [padSym_window] at h1
  exact h1.unique (scipyMedian_isRank h w size hs img y x)

/-- A square of a transposed image has the same pixels. -/
theorem scipyWindow_swap (h w size : Nat) (img : Nat → Nat → K) (y x : Nat) :
    (scipyWindow w h size (fun r c => img c r) x y).Perm (scipyWindow h w size img y x) := by
  unfold scipyWindow
  generalize List.range size = l
  have key : ∀ (l m : List Nat) (F : Nat → Nat → K),
      (l.flatMap fun a => m.map fun b => F b a).Perm (m.flatMap fun a => l.map fun b => F a b) := by
    intro l m F
    induction l with
    | nil => simp
    | cons i l ih =>
      have h1 : (m.flatMap fun a => (i :: l).map fun b => F a b).Perm
          (m.map (fun a => F a i) ++ m.flatMap fun a => l.map fun b => F a b) := by
        clear ih
        induction m with
        | nil => simp
        | cons j m ihm =>
          simp only [List.flatMap_cons, List.map_cons, List.cons_append]
          refine List.Perm.cons _ ?_
          refine (List.Perm.append_left _ ihm).trans ?_
          rw [← List.append_assoc, ← List.append_assoc]
          exact List.Perm.append_right _ List.perm_append_comm
      simp only [List.flatMap_cons]
      exact (List.Perm.append_left _ ih).trans h1.symm
  exact key l l fun a b => img (reflect h ((y : Int) + a - (size / 2 : Nat)))
    (reflect w ((x : Int) + b - (size / 2 : Nat)))

theorem scipyMedian_swap (h w size : Nat) (img : Nat → Nat → K) (y x : Nat) :
    scipyMedian w h size (fun r c => img c r) x y = scipyMedian h w size img y x := by
  unfold scipyMedian
  rw [sortL_perm (scipyWindow_swap h w size img y x)]

/-- **C103.** `median_filter_cuda` equals `median_filter`: without the GPU package for every size and
axis … -/
theorem median_cuda_without_gpu (gpu : Nat → Nat → (Nat → Nat → K) → Nat → Nat → K)
    (size axis : Nat) (a : Recon.Arr3 K) :
    medianCuda false gpu size axis a = medianCpu size axis a := rfl

/-- … and with it for the sizes it supports, if the GPU computes medians. -/
theorem median_cuda_gpu (gpu : Nat → Nat → (Nat → Nat → K) → Nat → Nat → K)
    (size : Nat) (h2 : 2 ≤ size) (h16 : size < 16) (hg : GpuMedian size gpu) (axis : Nat)
    (hax : axis < 3) (a : Recon.Arr3 K) :
    medianCuda true gpu size axis a = medianCpu size axis a := by
  have hm := gpu_median size (by omega) gpu hg
  have h3 : axis = 0 ∨ axis = 1 ∨ axis = 2 := by omega
  rcases h3 with rfl | rfl | rfl
  · simp only [medianCuda, if_true, ne_eq, not_true, if_false, gpuSlices, hm, medianCpu,
      if_pos (And.intro h2 h16)]
  · simp only [medianCuda, if_true, ne_eq, if_pos (And.intro h2 h16), gpuSlices, hm, medianCpu,
      swap0, one_ne_zero, not_false_eq_true]
  · have hsw : ∀ i j k, scipyMedian a.d1 a.d0 size (fun y x => a.get x y k) j i
        = scipyMedian a.d0 a.d1 size (fun y x => a.get y x k) i j := fun i j k =>
      scipyMedian_swap a.d0 a.d1 size (fun y x => a.get y x k) i j
    simp only [medianCuda, if_true, ne_eq, if_pos (And.intro h2 h16), gpuSlices, hm, medianCpu,
      swap0, OfNat.ofNat_ne_zero, not_false_eq_true, hsw]

/-- The pixel in the middle of the padded square is the pixel of the image. -/
theorem padSym_centre (h w size : Nat) (img : Nat → Nat → K) (y x : Nat) (hy : y < h) (hx : x < w) :
    padSym h w size img (y + size / 2) (x + size / 2) = img y x := by
  unfold padSym
  have e1 : ((y + size / 2 : Nat) : Int) - ((size / 2 : Nat) : Int) = (y : Int) := by push_cast; ring
  have e2 : ((x + size / 2 : Nat) : Int) - ((size / 2 : Nat) : Int) = (x : Int) := by push_cast; ring
  rw [e1, e2, (reflect_spec h (by omega)).2.1 y hy, (reflect_spec w (by omega)).2.1 x hx]

theorem gpu_outlier (size : Nat) (hs : 0 < size) (dif : K)
    (gpu : Nat → Nat → (Nat → Nat → K) → Nat → Nat → K) (hg : GpuOutlier size dif gpu) (h w : Nat)
    (img : Nat → Nat → K) (y x : Nat) (hy : y < h) (hx : x < w) :
    gpu h w (padSym h w size img) y x = outlierPix dif (img y x) (scipyMedian h w size img y x) := by
  obtain ⟨m, h1, h2⟩ := hg h w (padSym h w size img) y x
  rw [padSym_window] at h1
  rw [h2, padSym_centre h w size img y x hy hx,
    h1.unique (scipyMedian_isRank h w size hs img y x)]

/-- `remove_outlier_cuda` equals `remove_outlier` on the GPU for the sizes it supports, on every
axis … -/
theorem outlier_cuda_gpu (gpu : Nat → Nat → (Nat → Nat → K) → Nat → Nat → K) (dif : K)
    (size : Nat) (h2 : 2 ≤ size) (h16 : size < 16) (hg : GpuOutlier size dif gpu) (axis : Nat)
    (hax : axis < 3) (a : Recon.Arr3 K) :
    let r := outlierCuda true gpu dif size axis a
    r.d0 = a.d0 ∧ r.d1 = a.d1 ∧ r.d2 = a.d2 ∧
    ∀ i < a.d0, ∀ j < a.d1, ∀ k < a.d2, r.get i j k = (outlierCpu dif size axis a).get i j k := by
  have hm := gpu_outlier size (by omega) dif gpu hg
  have h3 : axis = 0 ∨ axis = 1 ∨ axis = 2 := by omega
  rcases h3 with rfl | rfl | rfl
  · simp only [outlierCuda, if_true, ne_eq, not_true, if_false, gpuSlices, outlierCpu, medianCpu,
      if_pos (And.intro h2 h16)]
    exact ⟨trivial, trivial, trivial, fun i hi j hj k hk => hm _ _ _ _ _ hj hk⟩
  · simp only [outlierCuda, if_true, ne_eq, if_pos (And.intro h2 h16), gpuSlices, outlierCpu, medianCpu,
      swap0, one_ne_zero, not_false_eq_true]
    exact ⟨trivial, trivial, trivial, fun i hi j hj k hk => hm _ _ _ _ _ hi hk⟩
  · have hsw : ∀ i j k, scipyMedian a.d1 a.d0 size (fun y x => a.get x y k) j i
        = scipyMedian a.d0 a.d1 size (fun y x => a.get y x k) i j := fun i j k =>
      scipyMedian_swap a.d0 a.d1 size (fun y x => a.get y x k) i j
    simp only [outlierCuda, if_true, ne_eq, if_pos (And.intro h2 h16), gpuSlices, outlierCpu, medianCpu,
      swap0, OfNat.ofNat_ne_zero, not_false_eq_true]
    refine ⟨trivial, trivial, trivial, fun i hi j hj k hk => ?_⟩
    rw [hm _ _ _ _ _ hj hi, hsw]

/-- … and without the package along axis 0. -/
theorem outlier_cuda_without_gpu (gpu : Nat → Nat → (Nat → Nat → K) → Nat → Nat → K) (dif : K)
    (size : Nat) (a : Recon.Arr3 K) :
    outlierCuda false gpu dif size 0 a = outlierCpu dif size 0 a := rfl

/-- REFUTED: `remove_outlier_cuda` removes outliers along `axis`.  Without the package it works along
axis 0 whatever `axis` is … -/
theorem outlier_cuda_axis_ignored (gpu : Nat → Nat → (Nat → Nat → K) → Nat → Nat → K) (dif : K)
    (size axis : Nat) (a : Recon.Arr3 K) :
    outlierCuda false gpu dif size axis a = outlierCpu dif size 0 a := rfl

/-- … which is something else: a line of outliers along axis 1 is found in the planes perpendicular
to axis 0 but not in those perpendicular to axis 1. -/
theorem outlier_axes_differ :
    let a : Recon.Arr3 ℚ := ⟨1, 3, 1, fun _ j _ => if j = 1 then 9 else 0⟩
    (outlierCuda false (fun _ _ p => p) 1 3 1 a).get 0 1 0 = 0 ∧
      (outlierCpu 1 3 1 a).get 0 1 0 = 9 := by
  decide +kernel

/-- REFUTED: sizes the GPU does not support are left to the CPU.  The array handed over has its axes
exchanged, and so has the result: another shape, filtered along another axis. -/
theorem cuda_size_fallback (gpu : Nat → Nat → (Nat → Nat → K) → Nat → Nat → K) (dif : K)
    (size : Nat) (hs : 16 ≤ size) (a : Recon.Arr3 K) :
    medianCuda true gpu size 1 a = swap0 1 (medianCpu size 0 a) ∧
    outlierCuda true gpu dif size 1 a = swap0 1 (outlierCpu dif size 1 a) ∧
    (medianCuda true gpu size 1 a).d0 = a.d1 ∧ (outlierCuda true gpu dif size 1 a).d0 = a.d1 := by
  have hn : ¬ (2 ≤ size ∧ size < 16) := by omega
  refine ⟨?_, ?_, ?_, ?_⟩ <;>
    simp [medianCuda, outlierCuda, hn, swap0, medianCpu, outlierCpu]

/-! ### Enhancement -/

theorem searchsorted_sorted (l : List K) (hl : l.Pairwise (· ≤ ·)) (v : K) :
    searchsorted l v = l.countP (· < v) := by
  unfold searchsorted
  induction l with
  | nil => rfl
  | cons a l ih =>
    rw [List.pairwise_cons] at hl
    by_cases ha : a < v
    · rw [List.takeWhile_cons_of_pos (by simpa using ha), List.countP_cons_of_pos (by simpa using ha),
        List.length_cons, ih hl.2]
    · rw [List.takeWhile_cons_of_neg (by simpa using ha)]
      symm
      rw [List.length_nil, List.countP_eq_zero]
      intro b hb
      rcases List.mem_cons.mp hb with rfl | hb
      · simpa using ha
      · have := hl.1 b hb
        simp only [decide_eq_true_eq, not_lt]
        exact (not_lt.mp ha).trans this

theorem length_flatten (h w : Nat) (img : Nat → Nat → K) : (flatten h w img).length = h * w := by
  simp [flatten, List.length_flatMap]

theorem mem_flatten {h w : Nat} {img : Nat → Nat → K} {v : K} :
    v ∈ flatten h w img ↔ ∃ y < h, ∃ x < w, img y x = v := by
  simp [flatten]

/-- The weight of a pixel: the part of the image that is darker, plus one pixel. -/
theorem histWgt_eq (h w : Nat) (img : Nat → Nat → K) (y x : Nat) :
    histWgt h w img y x = ((flatten h w img).countP (· < img y x) + 1 : Nat) / (h * w : Nat) := by
  unfold histWgt
  rw [searchsorted_sorted _ (pairwise_sortL _), (perm_sortL _).countP_eq]
  push_cast
  rfl

/-- **C105.** Histogram weights lie in (0, 1] … -/
theorem histWgt_range (h w : Nat) (img : Nat → Nat → K) (y x : Nat) (hy : y < h) (hx : x < w) :
    0 < histWgt h w img y x ∧ histWgt h w img y x ≤ 1 := by
  have hpos : 0 < h * w := Nat.mul_pos (by omega) (by omega)
  have hposK : (0 : K) < (h * w : Nat) := by exact_mod_cast hpos
  have hc : (flatten h w img).countP (· < img y x) + 1 ≤ h * w := by
    rw [← length_flatten h w img]
    have hmem : img y x ∈ flatten h w img := mem_flatten.mpr ⟨y, hy, x, hx, rfl⟩
    have := List.countP_lt_length_iff (p := fun v => decide (v < img y x)) (l := flatten h w img)
    exact this.mpr ⟨img y x, hmem, by simp⟩
  rw [histWgt_eq]
  refine ⟨div_pos (by positivity) hposK, (div_le_one hposK).mpr (by exact_mod_cast hc)⟩

/-- … and order the pixels as their values do. -/
theorem histWgt_le_iff (h w : Nat) (img : Nat → Nat → K) (y x y' x' : Nat) (_hy : y < h) (_hx : x < w)
    (hy' : y' < h) (hx' : x' < w) :
    histWgt h w img y x ≤ histWgt h w img y' x' ↔ img y x ≤ img y' x' := by
  have hpos : 0 < h * w := Nat.mul_pos (by omega) (by omega)
  have hposK : (0 : K) < (h * w : Nat) := by exact_mod_cast hpos
  have strict : ∀ u v : K, u ∈ flatten h w img → u < v →
      (flatten h w img).countP (· < u) < (flatten h w img).countP (· < v) := by
    intro u v hu huv
    generalize flatten h w img = l at hu
    induction l with
    | nil => simp at hu
    | cons b l ih =>
      have hle : l.countP (· < u) ≤ l.countP (· < v) :=
        List.countP_mono_left fun x _ hx => by
          simp only [decide_eq_true_eq] at hx ⊢; exact hx.trans huv
      rcases List.mem_cons.mp hu with rfl | hu'
      · rw [List.countP_cons_of_neg (by simp), List.countP_cons_of_pos (by simpa using huv)]
        omega
      · have := ih hu'
        rw [List.countP_cons, List.countP_cons]
        by_cases h1 : b < u
        · simp [h1, h1.trans huv]; exact this
        · by_cases h2 : b < v <;> simp [h1, h2] <;> omega
  rw [histWgt_eq, histWgt_eq, div_le_div_iff_of_pos_right hposK]
  constructor
  · intro hle
    by_contra hlt
    have := strict _ _ (mem_flatten.mpr ⟨y', hy', x', hx', rfl⟩) (not_le.mp hlt)
    have hle' : (flatten h w img).countP (· < img y x) + 1
        ≤ (flatten h w img).countP (· < img y' x') + 1 := by exact_mod_cast hle
    omega
  · intro hle
    have : (flatten h w img).countP (· < img y x) ≤ (flatten h w img).countP (· < img y' x') :=
      List.countP_mono_left fun v _ hv => by
        simp only [decide_eq_true_eq] at hv ⊢; exact lt_of_lt_of_le hv hle
    exact_mod_cast Nat.succ_le_succ this

theorem foldl_max (v : K) (vs : List K) :
    vs.foldl max v ∈ v :: vs ∧ ∀ u ∈ v :: vs, u ≤ vs.foldl max v := by
  induction vs generalizing v with
  | nil => simp
  | cons a vs ih =>
    obtain ⟨h1, h2⟩ := ih (max v a)
    rw [List.foldl_cons]
    refine ⟨?_, fun u hu => ?_⟩
    · rcases List.mem_cons.mp h1 with h | h
      · rw [h]
        rcases max_choice v a with hm | hm <;> rw [hm] <;> simp
      · simp [h]
    · have hle := h2 (max v a) (by simp)
      rcases List.mem_cons.mp hu with rfl | hu
      · exact (le_max_left _ _).trans hle
      · rcases List.mem_cons.mp hu with rfl | hu
        · exact (le_max_right _ _).trans hle
        · exact h2 u (by simp [hu])

/-- An enhanced projection lies in [0, 1] and reaches 1, unless the filtered image is black: then it
has no values. -/
theorem enhance_range (ks h w : Nat) (hks : ks % 2 = 1) (hh : 0 < h) (hw : 0 < w)
    (img : Nat → Nat → K) :
    ∃ out, enhanceImg ks true h w img = .ok out ∧
      ((∀ y < h, ∀ x < w, out y x = none ∧
          IsRank (medWindow h w ks img y x) (ks * ks / 2) 0) ∨
        ((∀ y < h, ∀ x < w, ∃ v, out y x = some v ∧ 0 ≤ v ∧ v ≤ 1) ∧
          ∃ y < h, ∃ x < w, out y x = some 1)) := by
  have hk2 : ¬ ks % 2 = 0 := by omega
  set e : Nat → Nat → K := fun y x =>
      (sortL (medWindow h w ks img y x)).getD (ks * ks / 2) 0 ^ 2 * histWgt h w img y x with he
  have hrank : ∀ y x, IsRank (medWindow h w ks img y x) (ks * ks / 2)
      ((sortL (medWindow h w ks img y x)).getD (ks * ks / 2) 0) := by
    intro y x
    have hlen : (medWindow h w ks img y x).length = ks * ks := by
      simp [medWindow, List.length_flatMap]
    have hpos : 0 < ks * ks := Nat.mul_pos (by omega) (by omega)
    have hlt : ks * ks / 2 < (sortL (medWindow h w ks img y x)).length := by
      rw [length_sortL, hlen]; omega
    rw [List.getD_eq_getElem _ _ hlt]
    exact sortL_isRank _ _ hlt
  have he0 : ∀ y < h, ∀ x < w, 0 ≤ e y x := fun y hy x hx =>
    mul_nonneg (sq_nonneg _) (histWgt_range h w img y x hy hx).1.le
  unfold enhanceImg
  rw [if_neg hk2]
  dsimp only
  rw [if_neg (by simp)]
  have hne : (flatten h w e).length ≠ 0 := by
    rw [length_flatten]
    have := Nat.mul_pos hh hw
    omega
  cases hf : flatten h w e with
  | nil => rw [hf] at hne; simp at hne
  | cons v vs =>
    obtain ⟨hm1, hm2⟩ := foldl_max v vs
    rw [← hf] at hm1 hm2
    set m := vs.foldl max v
    obtain ⟨y0, hy0, x0, hx0, hm⟩ := mem_flatten.mp hm1
    refine ⟨_, rfl, ?_⟩
    by_cases hmz : m = 0
    · left
      intro y hy x hx
      rw [if_pos hmz]
      refine ⟨rfl, ?_⟩
      have h1 := hm2 _ (mem_flatten.mpr ⟨y, hy, x, hx, rfl⟩)
      have h2 : e y x = 0 := le_antisymm (h1.trans hmz.le) (he0 y hy x hx)
      have h3 := (mul_eq_zero.mp h2).resolve_right (histWgt_range h w img y x hy hx).1.ne'
      have h4 := pow_eq_zero_iff (two_ne_zero) |>.mp h3
      rw [← h4]
      exact hrank y x
    · right
      have hmp : 0 < m := lt_of_le_of_ne (hm ▸ he0 y0 hy0 x0 hx0) (Ne.symm hmz)
      refine ⟨fun y hy x hx => ⟨e y x / m, by rw [if_neg hmz], div_nonneg (he0 y hy x hx) hmp.le, ?_⟩,
        y0, hy0, x0, hx0, ?_⟩
      · exact (div_le_one hmp).mpr (hm2 _ (mem_flatten.mpr ⟨y, hy, x, hx, rfl⟩))
      · rw [if_neg hmz]
        exact congrArg some ((congrArg (· / m) hm).trans (div_self hmz))

/-- An even kernel raises ValueError. -/
theorem enhance_even (ks : Nat) (hks : ks % 2 = 0) (nrm : Bool) (h w : Nat) (img : Nat → Nat → K) :
    enhanceImg ks nrm h w img = .error .value := by
  unfold enhanceImg; rw [if_pos hks]

/-- A stack is enhanced image by image, in order. -/
theorem enhance_stack (cpu : Nat) (ncore : Option Nat) (hn : 0 < ncore.getD (cpu - 1)) (ks h w : Nat)
    (imgs : List (Nat → Nat → K)) (hne : imgs ≠ []) (outs : List (Nat → Nat → Option K))
    (hi : List.Forall₂ (fun img out => enhanceImg ks true h w img = .ok out) imgs outs) :
    enhanceStack cpu ncore ks h w imgs = .ok outs := by
  have hm : imgs.mapM (enhanceImg ks true h w) = .ok outs := by
    clear hne
    induction hi with
    | nil => rfl
    | cons h1 _ ih => rw [List.mapM_cons, h1, ih]; rfl
  unfold enhanceStack
  dsimp only
  rw [if_neg (by omega), hm]
  cases hi with
  | nil => exact absurd rfl hne
  | cons => rfl

/-- REFUTED: `enhance_projs_aps_1id` works on every machine.  With one processor and no `ncore` the
pool is to have no workers: ValueError. -/
theorem enhance_single_cpu (ks h w : Nat) (imgs : List (Nat → Nat → K)) :
    enhanceStack 1 none ks h w imgs = .error .value := rfl

-- weights and enhancement of a 1×3 image
example : (List.range 3).map (histWgt 1 3 (fun _ x => [(5 : ℚ), 2, 2].getD x 0) 0) = [1, 1/3, 1/3] := by
  decide +kernel

example : ((enhanceImg 1 true 1 3 (fun _ x => [(4 : ℚ), 2, 2].getD x 0)).map
    fun o => (List.range 3).map (o 0)) = .ok [some 1, some (1/12), some (1/12)] := by
  decide +kernel

end Tomopy.Corr.Filt
