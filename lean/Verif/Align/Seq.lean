import Verif.Align.SeqModel
import Verif.Sim.Noise
import Mathlib.Algebra.BigOperators.Group.Finset.Basic
import Mathlib.Data.List.GetD
import Mathlib.Data.Rat.Floor

/-!
# Properties of `scale`, `blur_edges`, `add_jitter`, `add_noise`, `shift_images`, `align_seq` and
`align_joint`
-/

set_option linter.unusedSectionVars false

namespace Tomopy.Align

open Tomopy.Recon Tomopy.Sim Finset

section Generic

variable {K : Type} [Field K] [LinearOrder K] [IsStrictOrderedRing K]

/-! ## `scale` -/

theorem foldl_min_mem' (l : List K) (a : K) :
    l.foldl min a ∈ a :: l ∧ ∀ x ∈ a :: l, l.foldl min a ≤ x := by
  induction l generalizing a with
  | nil => simp
  | cons b l ih =>
    obtain ⟨h1, h2⟩ := ih (min a b)
    simp only [List.foldl_cons]
    refine ⟨?_, ?_⟩
    · rcases List.mem_cons.1 h1 with h | h
      · rw [h]; rcases min_choice a b with h | h <;> rw [h] <;> simp
      · simp [h]
    · intro x hx
      have hm := h2 (min a b) (by simp)
      rcases List.mem_cons.1 hx with rfl | hx
      · exact hm.trans (min_le_left _ _)
      · rcases List.mem_cons.1 hx with rfl | hx
        · exact hm.trans (min_le_right _ _)
        · exact h2 x (by simp [hx])

theorem foldl_max_mem' (l : List K) (a : K) :
    l.foldl max a ∈ a :: l ∧ ∀ x ∈ a :: l, x ≤ l.foldl max a := by
  induction l generalizing a with
  | nil => simp
  | cons b l ih =>
    obtain ⟨h1, h2⟩ := ih (max a b)
    simp only [List.foldl_cons]
    refine ⟨?_, ?_⟩
    · rcases List.mem_cons.1 h1 with h | h
      · rw [h]; rcases max_choice a b with h | h <;> rw [h] <;> simp
      · simp [h]
    · intro x hx
      have hm := h2 (max a b) (by simp)
      rcases List.mem_cons.1 hx with rfl | hx
      · exact (le_max_left _ _).trans hm
      · rcases List.mem_cons.1 hx with rfl | hx
        · exact (le_max_right _ _).trans hm
        · exact h2 x (by simp [hx])

/-- The factor is the largest absolute value. -/
theorem scaleFactor_spec {a : Arr3 K} {s : K} (h : scaleFactor a = .ok s) :
    (∀ m r c, m < a.d0 → r < a.d1 → c < a.d2 → |a.get m r c| ≤ s) ∧
      ∃ m r c, m < a.d0 ∧ r < a.d1 ∧ c < a.d2 ∧ |a.get m r c| = s := by
  unfold scaleFactor at h
  cases he : elems a with
  | nil => rw [he] at h; cases h
  | cons x xs =>
    rw [he] at h
    injection h with h
    obtain ⟨M1, M2⟩ := foldl_max_mem' xs x
    obtain ⟨m1, m2⟩ := foldl_min_mem' xs x
    rw [← he] at M1 m1 M2 m2
    refine ⟨fun m r c hm hr hc => ?_, ?_⟩
    · have hx : a.get m r c ∈ elems a := mem_elems.2 ⟨m, r, c, hm, hr, hc, rfl⟩
      rw [← h, abs_le]
      constructor
      · have h1 := m2 _ hx
        have h2 := neg_abs_le (xs.foldl min x)
        have h3 := le_max_right |xs.foldl max x| |xs.foldl min x|
        linarith
      · have h1 := M2 _ hx
        have h2 := le_abs_self (xs.foldl max x)
        have h3 := le_max_left |xs.foldl max x| |xs.foldl min x|
        linarith
    · rcases max_choice |xs.foldl max x| |xs.foldl min x| with e | e
      · obtain ⟨i, j, k, hi, hj, hk, e'⟩ := mem_elems.1 M1
        exact ⟨i, j, k, hi, hj, hk, by rw [e', ← h, e]⟩
      · obtain ⟨i, j, k, hi, hj, hk, e'⟩ := mem_elems.1 m1
        exact ⟨i, j, k, hi, hj, hk, by rw [e', ← h, e]⟩

theorem scaleFactor_nonempty {a : Arr3 K} (h : 0 < a.d0 ∧ 0 < a.d1 ∧ 0 < a.d2) :
    ∃ s, scaleFactor a = .ok s := by
  unfold scaleFactor
  cases he : elems a with
  | nil =>
    have : a.get 0 0 0 ∈ elems a := mem_elems.2 ⟨0, 0, 0, h.1, h.2.1, h.2.2, rfl⟩
    rw [he] at this; cases this
  | cons x xs => exact ⟨_, rfl⟩

theorem scale_some {a : Arr3 K} {fl : Bool} {s : ScaleOut K} (h : scale fl a = .ok (some s)) :
    fl = true ∧ scaleFactor a = .ok s.scl ∧ s.scl ≠ 0 ∧
      s.prj = { a with get := fun m r c => a.get m r c / s.scl } ∧ s.arg = s.prj := by
  unfold scale at h
  cases hf : scaleFactor a with
  | error e => rw [hf] at h; cases h
  | ok v =>
    rw [hf] at h
    cases fl with
    | false => cases h
    | true =>
      simp only [bind, Except.bind, Bool.not_true, Bool.false_eq_true, if_false] at h
      by_cases hv : v = 0
      · rw [if_pos hv] at h; cases h
      · rw [if_neg hv] at h
        injection h with h
        injection h with h
        subst h
        exact ⟨rfl, rfl, hv, rfl, rfl⟩

/-- C94: on floating-point projections `scale` returns projections in `[-1, 1]` that touch ±1, and a
positive factor that restores them; the caller's array is overwritten with the result. -/
theorem scale_range {a : Arr3 K} {s : ScaleOut K} (h : scale true a = .ok (some s)) :
    0 < s.scl ∧ (s.prj.d0 = a.d0 ∧ s.prj.d1 = a.d1 ∧ s.prj.d2 = a.d2) ∧ s.arg = s.prj ∧
      (∀ m r c, m < a.d0 → r < a.d1 → c < a.d2 →
        |s.prj.get m r c| ≤ 1 ∧ s.prj.get m r c * s.scl = a.get m r c) ∧
      ∃ m r c, m < a.d0 ∧ r < a.d1 ∧ c < a.d2 ∧ |s.prj.get m r c| = 1 := by
  obtain ⟨-, hf, h0, hp, ha⟩ := scale_some h
  obtain ⟨f1, i, j, k, hi, hj, hk, e⟩ := scaleFactor_spec hf
  have hpos : 0 < s.scl := lt_of_le_of_ne (e ▸ abs_nonneg _) (Ne.symm h0)
  refine ⟨hpos, by rw [hp]; exact ⟨rfl, rfl, rfl⟩, ha, fun m r c hm hr hc => ?_,
    i, j, k, hi, hj, hk, ?_⟩
  · rw [hp]
    refine ⟨?_, div_mul_cancel₀ _ h0⟩
    dsimp only
    rw [abs_div, abs_of_pos hpos, div_le_one hpos]
    exact f1 m r c hm hr hc
  · rw [hp]
    dsimp only
    rw [abs_div, abs_of_pos hpos, e, div_self h0]

/-- C94: exactly for projections that are zero everywhere the result is undefined (NaN). -/
theorem scale_blank {a : Arr3 K} (h : 0 < a.d0 ∧ 0 < a.d1 ∧ 0 < a.d2) :
    scale true a = .ok none ↔
      ∀ m r c, m < a.d0 → r < a.d1 → c < a.d2 → a.get m r c = 0 := by
  obtain ⟨s, hs⟩ := scaleFactor_nonempty h
  obtain ⟨f1, i, j, k, hi, hj, hk, e⟩ := scaleFactor_spec hs
  unfold scale
  rw [hs]
  simp only [bind, Except.bind, Bool.not_true, Bool.false_eq_true, if_false]
  constructor
  · intro hh m r c hm hr hc
    by_cases h0 : s = 0
    · have := f1 m r c hm hr hc
      rw [h0] at this
      exact abs_eq_zero.1 (le_antisymm this (abs_nonneg _))
    · rw [if_neg h0] at hh; cases hh
  · intro hz
    rw [if_pos]
    rw [← e, hz i j k hi hj hk, abs_zero]

/-- C94: projections without elements raise ValueError, integer projections TypeError. -/
theorem scale_raises (a : Arr3 K) :
    ((a.d0 = 0 ∨ a.d1 = 0 ∨ a.d2 = 0) → ∀ fl, scale fl a = .error .value) ∧
      (0 < a.d0 ∧ 0 < a.d1 ∧ 0 < a.d2 → scale false a = .error .type) := by
  constructor
  · intro h fl
    have : elems a = [] := by
      cases he : elems a with
      | nil => rfl
      | cons x xs =>
        obtain ⟨i, j, k, hi, hj, hk, -⟩ := mem_elems.1 (show x ∈ elems a by rw [he]; simp)
        omega
    unfold scale scaleFactor
    rw [this]; rfl
  · intro h
    obtain ⟨s, hs⟩ := scaleFactor_nonempty h
    unfold scale
    rw [hs]; rfl

/-- Floating-point projections that are not blank are scaled. -/
theorem scale_defined {a : Arr3 K}
    (h : ∃ m r c, m < a.d0 ∧ r < a.d1 ∧ c < a.d2 ∧ a.get m r c ≠ 0) :
    ∃ s, scale true a = .ok (some s) := by
  obtain ⟨m, r, c, hm, hr, hc, hne⟩ := h
  obtain ⟨s, hs⟩ := scaleFactor_nonempty (a := a) ⟨by omega, by omega, by omega⟩
  unfold scale
  rw [hs]
  simp only [bind, Except.bind, Bool.not_true, Bool.false_eq_true, if_false]
  have : s ≠ 0 := by
    intro h0
    have := (scaleFactor_spec hs).1 m r c hm hr hc
    rw [h0] at this
    exact hne (abs_eq_zero.1 (le_antisymm this (abs_nonneg _)))
  rw [if_neg this]
  exact ⟨_, rfl⟩

/-- C94: `add_noise` adds, to every pixel, `ratio` times the largest pixel times the draw, into a new
array; with a negative largest pixel and a positive ratio it raises. -/
theorem add_noise_value {a : Arr3 K} {mx ratio : K} (z : Draws K) (h : maxElem a = .ok mx) :
    (0 ≤ mx * ratio → ∃ o, addNoise a ratio z = .ok o ∧ o.arg = a ∧
      ∀ m r c, o.result.get m r c = a.get m r c + mx * ratio * z m r c) ∧
    (mx < 0 → 0 < ratio → addNoise a ratio z = .error .value) := by
  unfold addNoise
  rw [h]
  simp only [bind, Except.bind]
  constructor
  · intro h0
    rw [if_neg (not_lt.2 h0)]
    exact ⟨_, rfl, rfl, fun _ _ _ => rfl⟩
  · intro h1 h2
    rw [if_pos (mul_neg_of_neg_of_pos h1 h2)]

/-! ## Moving projections -/

/-- The image at row `r + ty` and column `c + tx`, zero outside. -/
def moved (dy dz : Nat) (ty tx : Int) (f : Nat → Nat → K) (r c : Nat) : K :=
  if 0 ≤ r + ty ∧ r + ty < dy ∧ 0 ≤ c + tx ∧ c + tx < dz then f (r + ty).toNat (c + tx).toNat else 0

theorem moved_zero {dy dz : Nat} (f : Nat → Nat → K) {r c : Nat} (hr : r < dy) (hc : c < dz) :
    moved dy dz 0 0 f r c = f r c := by
  unfold moved
  rw [if_pos (by omega)]
  congr 1

/-- C95: for whole shifts `shift_images` puts at row `r` and column `c` the pixel at row `r + sx` and
column `c + sy`, or zero; the caller's array is overwritten with the result. -/
theorem shift_images_value (W : Warp K) {a : Arr3 K} {sx sy : List Int} {o : Outcome K}
    (h : shiftImages W true a (sx.map fun i : Int => (i : K)) (sy.map fun i : Int => (i : K)) =
      .ok (some o)) :
    o.arg = o.result ∧ (o.result.d0 = a.d0 ∧ o.result.d1 = a.d1 ∧ o.result.d2 = a.d2) ∧
      ∀ m r c, m < a.d0 → o.result.get m r c =
        moved a.d1 a.d2 (sx.getD m 0) (sy.getD m 0) (a.get m) r c := by
  unfold shiftImages at h
  cases hs : scale true a with
  | error e => rw [hs] at h; cases h
  | ok os =>
    rw [hs] at h
    cases os with
    | none => cases h
    | some s =>
      obtain ⟨-, -, h0, hp, -⟩ := scale_some hs
      simp only [bind, Except.bind] at h
      split at h
      · cases h
      · rename_i hl
        injection h with h
        injection h with h
        subst h
        refine ⟨rfl, by simp [rescale, warpAll, hp], fun m r c hm => ?_⟩
        have ex : (sx.map fun i : Int => (i : K)).getD m 0 = ((sx.getD m 0 : Int) : K) := by
          have : m < sx.length := by simp only [List.length_map] at hl; omega
          rw [List.getD_eq_getElem _ _ (by simpa using this), List.getD_eq_getElem _ _ this]
          simp
        have ey : (sy.map fun i : Int => (i : K)).getD m 0 = ((sy.getD m 0 : Int) : K) := by
          have : m < sy.length := by simp only [List.length_map] at hl; omega
          rw [List.getD_eq_getElem _ _ (by simpa using this), List.getD_eq_getElem _ _ this]
          simp
        simp only [rescale, warpAll, ex, ey, W.whole, hp, moved]
        split
        · exact div_mul_cancel₀ _ h0
        · exact zero_mul _

/-- C95: lists of shifts that are too short raise IndexError, the data already divided. -/
theorem shift_images_short (W : Warp K) {a : Arr3 K} {sx sy : List K} {s : ScaleOut K}
    (hs : scale true a = .ok (some s)) (h : sx.length < a.d0 ∨ sy.length < a.d0) :
    shiftImages W true a sx sy = .error .index := by
  unfold shiftImages
  rw [hs]
  simp only [bind, Except.bind]
  rw [if_pos h]

theorem shift_images_defined (W : Warp K) {a : Arr3 K} {sx sy : List K}
    (hne : ∃ m r c, m < a.d0 ∧ r < a.d1 ∧ c < a.d2 ∧ a.get m r c ≠ 0)
    (hx : a.d0 ≤ sx.length) (hy : a.d0 ≤ sy.length) :
    ∃ o, shiftImages W true a sx sy = .ok (some o) := by
  obtain ⟨s, hs⟩ := scale_defined hne
  unfold shiftImages
  rw [hs]
  simp only [bind, Except.bind]
  rw [if_neg (by omega)]
  exact ⟨_, rfl⟩

/-- C95: for whole draws `add_jitter` puts at row `r` and column `c` the pixel at row `r + j[1]` and
column `c + j[0]`; it returns the column shifts first. -/
theorem add_jitter_value (W : Warp K) {a : Arr3 K} {jx jy : Nat → Int} {o : JitterOut K}
    (h : addJitter W true a (fun m => ((jx m : K), (jy m : K))) = .ok (some o)) :
    o.arg = o.prj ∧ (o.prj.d0 = a.d0 ∧ o.prj.d1 = a.d1 ∧ o.prj.d2 = a.d2) ∧
      o.jx = ((List.range a.d0).map jx).map (fun i : Int => (i : K)) ∧
      o.jy = ((List.range a.d0).map jy).map (fun i : Int => (i : K)) ∧
      ∀ m r c, o.prj.get m r c = moved a.d1 a.d2 (jy m) (jx m) (a.get m) r c := by
  unfold addJitter at h
  cases hs : scale true a with
  | error e => rw [hs] at h; cases h
  | ok os =>
    rw [hs] at h
    cases os with
    | none => cases h
    | some s =>
      obtain ⟨-, -, h0, hp, -⟩ := scale_some hs
      simp only [bind, Except.bind] at h
      injection h with h
      injection h with h
      subst h
      refine ⟨rfl, by simp [rescale, warpAll, hp], by simp, by simp, fun m r c => ?_⟩
      simp only [rescale, warpAll, W.whole, hp, moved]
      split
      · exact div_mul_cancel₀ _ h0
      · exact zero_mul _

/-- C95: jitter is undone by `shift_images` with the negated shifts *in the other order*: every pixel
that jitter kept inside of its image comes back. -/
theorem jitter_undone (W : Warp K) {a : Arr3 K} {jx jy : Nat → Int} {o : JitterOut K} {u : Outcome K}
    (h : addJitter W true a (fun m => ((jx m : K), (jy m : K))) = .ok (some o))
    (hu : shiftImages W true o.prj (o.jy.map fun x => -x) (o.jx.map fun x => -x) = .ok (some u))
    {m r c : Nat} (hm : m < a.d0) (hr : r < a.d1) (hc : c < a.d2)
    (hr0 : 0 ≤ (r : Int) - jy m) (hr1 : (r : Int) - jy m < a.d1)
    (hc0 : 0 ≤ (c : Int) - jx m) (hc1 : (c : Int) - jx m < a.d2) :
    u.result.get m r c = a.get m r c := by
  obtain ⟨-, ⟨d0, d1, d2⟩, ex, ey, hv⟩ := add_jitter_value W h
  have ex' : o.jx.map (fun x => -x) =
      ((List.range a.d0).map fun m => -jx m).map fun i : Int => (i : K) := by
    rw [ex]; simp [List.map_map, Function.comp_def]
  have ey' : o.jy.map (fun x => -x) =
      ((List.range a.d0).map fun m => -jy m).map fun i : Int => (i : K) := by
    rw [ey]; simp [List.map_map, Function.comp_def]
  rw [ex', ey'] at hu
  obtain ⟨-, -, hw⟩ := shift_images_value W hu
  rw [hw m r c (by omega), List.getD_eq_getElem _ _ (by simpa using hm),
    List.getD_eq_getElem _ _ (by simpa using hm)]
  simp only [List.getElem_map, List.getElem_range, moved, d1, d2]
  rw [if_pos (by omega), hv]
  unfold moved
  have e1 : (((r : Int) + -jy m).toNat : Int) = r - jy m := by omega
  have e2 : (((c : Int) + -jx m).toNat : Int) = c - jx m := by omega
  rw [e1, e2, if_pos (by omega)]
  congr 1 <;> omega

/-! ## `align_seq` -/

/-- The state after `n` iterations of `align_seq`. -/
def seqSt (T : Tools K) (pad : Nat × Nat) (p : Arr3 K) (n : Nat) : AlignSt K :=
  (seqIter T)^[n] (startSt pad p)

theorem seqSt_succ (T : Tools K) (pad : Nat × Nat) (p : Arr3 K) (n : Nat) :
    seqSt T pad p (n + 1) = seqIter T (seqSt T pad p n) := by
  unfold seqSt; rw [Function.iterate_succ_apply']

theorem seqSt_dims (T : Tools K) (pad : Nat × Nat) (p : Arr3 K) (n : Nat) :
    (seqSt T pad p n).prj.d0 = p.d0 ∧ (seqSt T pad p n).prj.d1 = p.d1 + 2 * pad.2 ∧
      (seqSt T pad p n).prj.d2 = p.d2 + 2 * pad.1 := by
  induction n with
  | zero => exact ⟨rfl, rfl, rfl⟩
  | succ n ih => rw [seqSt_succ]; exact ih

theorem align_seq_some (T : Tools K) {a : Arr3 K} {iters : Nat} {pad : Nat × Nat} {o : AlignOut K}
    (h : alignSeq T true a iters pad = .ok (some o)) :
    ∃ s : ScaleOut K, scale true a = .ok (some s) ∧
      o = ⟨rescale s.scl (seqSt T pad s.prj iters).prj, (seqSt T pad s.prj iters).sx,
        (seqSt T pad s.prj iters).sy, s.arg⟩ := by
  unfold alignSeq at h
  cases hs : scale true a with
  | error e => rw [hs] at h; cases h
  | ok os =>
    rw [hs] at h
    cases os with
    | none => cases h
    | some s =>
      simp only [bind, Except.bind] at h
      injection h with h
      injection h with h
      exact ⟨s, rfl, h.symm⟩

/-- C96: the shifts returned are the sums over the iterations of the shifts found by registering the
projections of that iteration with their simulation. -/
theorem align_seq_shifts (T : Tools K) {a : Arr3 K} {iters : Nat} {pad : Nat × Nat} {o : AlignOut K}
    (h : alignSeq T true a iters pad = .ok (some o)) :
    ∃ (s : ScaleOut K) (p : Nat → Arr3 K), scale true a = .ok (some s) ∧
      p 0 = padZero pad s.prj ∧
      (∀ n m, (p (n + 1)).get m = T.warp.run (p n).d1 (p n).d2
        ((shifts T (p n) (T.project (T.recon none (p n))) m).2,
         (shifts T (p n) (T.project (T.recon none (p n))) m).1) ((p n).get m)) ∧
      (∀ m r c, o.prj.get m r c = (p iters).get m r c * s.scl) ∧
      ∀ m, o.sx m = ∑ n ∈ range iters, (shifts T (p n) (T.project (T.recon none (p n))) m).1 ∧
        o.sy m = ∑ n ∈ range iters, (shifts T (p n) (T.project (T.recon none (p n))) m).2 := by
  obtain ⟨s, hs, rfl⟩ := align_seq_some T h
  refine ⟨s, fun n => (seqSt T pad s.prj n).prj, hs, rfl, fun n m => ?_, fun _ _ _ => rfl, fun m => ?_⟩
  · dsimp only; rw [seqSt_succ]; rfl
  · clear h
    induction iters with
    | zero => exact ⟨rfl, rfl⟩
    | succ n ih =>
      rw [Finset.sum_range_succ, Finset.sum_range_succ, ← ih.1, ← ih.2, seqSt_succ]
      exact ⟨rfl, rfl⟩

/-- C96: if registration finds whole shifts, nothing is invented: every pixel returned is either zero
or the padded input moved by the shifts returned; it is the latter for every pixel whose way through
the iterations stays inside of the padded image. -/
theorem align_seq_pixels (T : Tools K) {a : Arr3 K} {iters : Nat} {pad : Nat × Nat} {o : AlignOut K}
    (hw : ∀ f g, ∃ i j : Int, T.register f g = ((i : K), (j : K)))
    (h : alignSeq T true a iters pad = .ok (some o)) (m : Nat) :
    ∃ S T' : Nat → Int, o.sx m = (S iters : K) ∧ o.sy m = (T' iters : K) ∧ S 0 = 0 ∧ T' 0 = 0 ∧
      ∀ r c, r < a.d1 + 2 * pad.2 → c < a.d2 + 2 * pad.1 →
        (o.prj.get m r c = 0 ∨ o.prj.get m r c =
          moved (a.d1 + 2 * pad.2) (a.d2 + 2 * pad.1) (S iters) (T' iters)
            ((padZero pad a).get m) r c) ∧
        ((∀ k ≤ iters, 0 ≤ (r : Int) + (S iters - S k) ∧
            (r : Int) + (S iters - S k) < (a.d1 + 2 * pad.2 : Nat) ∧
            0 ≤ (c : Int) + (T' iters - T' k) ∧
            (c : Int) + (T' iters - T' k) < (a.d2 + 2 * pad.1 : Nat)) →
          o.prj.get m r c =
            moved (a.d1 + 2 * pad.2) (a.d2 + 2 * pad.1) (S iters) (T' iters)
              ((padZero pad a).get m) r c) := by
  obtain ⟨s, hs, rfl⟩ := align_seq_some T h
  clear h
  obtain ⟨-, -, h0, hp, -⟩ := scale_some hs
  choose fi fj hij using hw
  let sh : Nat → Int × Int := fun n =>
    let q := (seqSt T pad s.prj n).prj
    let u := (T.blur q).get m
    let v := (T.blur (T.project (T.recon none q))).get m
    (fi u v, fj u v)
  have hsh : ∀ n, shifts T (seqSt T pad s.prj n).prj
      (T.project (T.recon none (seqSt T pad s.prj n).prj)) m =
        (((sh n).1 : K), ((sh n).2 : K)) := fun n => hij _ _
  let S : Nat → Int := fun n => ∑ k ∈ range n, (sh k).1
  let T' : Nat → Int := fun n => ∑ k ∈ range n, (sh k).2
  have hS : ∀ n, S (n + 1) = S n + (sh n).1 := fun n => Finset.sum_range_succ _ _
  have hT : ∀ n, T' (n + 1) = T' n + (sh n).2 := fun n => Finset.sum_range_succ _ _
  have hsx : ∀ n, (seqSt T pad s.prj n).sx m = (S n : K) ∧
      (seqSt T pad s.prj n).sy m = (T' n : K) := by
    intro n
    induction n with
    | zero => exact ⟨by simp [S]; rfl, by simp [T']; rfl⟩
    | succ n ih =>
      rw [seqSt_succ, hS, hT]
      have := hsh n
      constructor
      · show (seqSt T pad s.prj n).sx m + (shifts T _ _ m).1 = _
        rw [this, ih.1]; push_cast; rfl
      · show (seqSt T pad s.prj n).sy m + (shifts T _ _ m).2 = _
        rw [this, ih.2]; push_cast; rfl
  have hstep : ∀ n r c, (seqSt T pad s.prj (n + 1)).prj.get m r c =
      moved (s.prj.d1 + 2 * pad.2) (s.prj.d2 + 2 * pad.1) (sh n).1 (sh n).2
        ((seqSt T pad s.prj n).prj.get m) r c := by
    intro n r c
    rw [seqSt_succ]
    show T.warp.run _ _ ((shifts T _ _ m).2, (shifts T _ _ m).1) _ r c = _
    rw [hsh n, T.warp.whole, (seqSt_dims T pad s.prj n).2.1, (seqSt_dims T pad s.prj n).2.2]
    rfl
  have key1 : ∀ n r c, r < s.prj.d1 + 2 * pad.2 → c < s.prj.d2 + 2 * pad.1 →
      (seqSt T pad s.prj n).prj.get m r c = 0 ∨ (seqSt T pad s.prj n).prj.get m r c =
        moved (s.prj.d1 + 2 * pad.2) (s.prj.d2 + 2 * pad.1) (S n) (T' n)
          ((padZero pad s.prj).get m) r c := by
    intro n
    induction n with
    | zero =>
      intro r c hr hc
      right
      exact (moved_zero _ hr hc).symm
    | succ n ih =>
      intro r c hr hc
      rw [hstep]
      unfold moved
      split
      · rename_i hin
        rcases ih ((r : Int) + (sh n).1).toNat ((c : Int) + (sh n).2).toNat (by omega) (by omega)
          with e | e
        · left; exact e
        · right
          rw [e]
          unfold moved
          have e1 : ((((r : Int) + (sh n).1).toNat : Nat) : Int) + S n = r + S (n + 1) := by
            rw [hS]; omega
          have e2 : ((((c : Int) + (sh n).2).toNat : Nat) : Int) + T' n = c + T' (n + 1) := by
            rw [hT]; omega
          rw [e1, e2]
      · left; rfl
  have key2 : ∀ (n r c : Nat), (∀ k ≤ n, 0 ≤ (r : Int) + (S n - S k) ∧
            (r : Int) + (S n - S k) < (s.prj.d1 + 2 * pad.2 : Nat) ∧
            0 ≤ (c : Int) + (T' n - T' k) ∧
            (c : Int) + (T' n - T' k) < (s.prj.d2 + 2 * pad.1 : Nat)) →
      (seqSt T pad s.prj n).prj.get m r c =
        moved (s.prj.d1 + 2 * pad.2) (s.prj.d2 + 2 * pad.1) (S n) (T' n)
          ((padZero pad s.prj).get m) r c := by
    intro n
    induction n with
    | zero =>
      intro r c hin
      have := hin 0 le_rfl
      exact (moved_zero _ (by omega) (by omega)).symm
    | succ n ih =>
      intro r c hin
      have h1 := hin n (by omega)
      rw [hS, hT] at h1
      rw [hstep]
      unfold moved
      rw [if_pos (by omega), ih]
      · unfold moved
        have e1 : ((((r : Int) + (sh n).1).toNat : Nat) : Int) + S n = r + S (n + 1) := by
          rw [hS]; omega
        have e2 : ((((c : Int) + (sh n).2).toNat : Nat) : Int) + T' n = c + T' (n + 1) := by
          rw [hT]; omega
        rw [e1, e2]
      · intro k hk
        have h2 := hin k (by omega)
        rw [hS, hT] at h2
        omega
  have hd1 : s.prj.d1 = a.d1 := by rw [hp]
  have hd2 : s.prj.d2 = a.d2 := by rw [hp]
  have hpad : ∀ (x y : Int) r c, moved (a.d1 + 2 * pad.2) (a.d2 + 2 * pad.1) x y
        ((padZero pad s.prj).get m) r c * s.scl =
      moved (a.d1 + 2 * pad.2) (a.d2 + 2 * pad.1) x y ((padZero pad a).get m) r c := by
    intro x y r c
    simp only [moved, padZero, hp]
    split
    · split
      · exact div_mul_cancel₀ _ h0
      · exact zero_mul _
    · exact zero_mul _
  rw [hd1, hd2] at key1 key2
  refine ⟨S, T', (hsx iters).1, (hsx iters).2, rfl, rfl, fun r c hr hc => ⟨?_, fun hin => ?_⟩⟩
  · show (seqSt T pad s.prj iters).prj.get m r c * s.scl = 0 ∨
      (seqSt T pad s.prj iters).prj.get m r c * s.scl = _
    rcases key1 iters r c hr hc with e | e
    · left; rw [e, zero_mul]
    · right; rw [e, hpad]
  · show (seqSt T pad s.prj iters).prj.get m r c * s.scl = _
    rw [key2 iters r c hin, hpad]

/-- C96: one iteration moves in the right direction.  If a projection is its simulation displaced by
the shift registration reports, then the moved projection equals the simulation wherever the data
reach. -/
theorem align_seq_corrects (T : Tools K) (st : AlignSt K) {m : Nat} {sy sx : Int}
    (hreg : shifts T st.prj (T.project (T.recon none st.prj)) m = ((sy : K), (sx : K)))
    (hdisp : ∀ r c, r < st.prj.d1 → c < st.prj.d2 → 0 ≤ (r : Int) - sy → (r : Int) - sy < st.prj.d1 →
      0 ≤ (c : Int) - sx → (c : Int) - sx < st.prj.d2 →
      st.prj.get m r c =
        (T.project (T.recon none st.prj)).get m ((r : Int) - sy).toNat ((c : Int) - sx).toNat)
    {r c : Nat} (hr : r < st.prj.d1) (hc : c < st.prj.d2)
    (hr0 : 0 ≤ (r : Int) + sy) (hr1 : (r : Int) + sy < st.prj.d1)
    (hc0 : 0 ≤ (c : Int) + sx) (hc1 : (c : Int) + sx < st.prj.d2) :
    (seqIter T st).prj.get m r c = (T.project (T.recon none st.prj)).get m r c ∧
      (seqIter T st).sx m = st.sx m + sy ∧ (seqIter T st).sy m = st.sy m + sx := by
  refine ⟨?_, by show st.sx m + (shifts T _ _ m).1 = _; rw [hreg],
    by show st.sy m + (shifts T _ _ m).2 = _; rw [hreg]⟩
  show T.warp.run _ _ ((shifts T _ _ m).2, (shifts T _ _ m).1) _ r c = _
  rw [hreg, T.warp.whole, if_pos ⟨hr0, hr1, hc0, hc1⟩, hdisp _ _ (by omega) (by omega) (by omega)
    (by omega) (by omega) (by omega)]
  congr 1 <;> omega

/-- C96: aligned projections stay as they are: if registration finds no shift between the padded,
scaled input and its simulation, then `align_seq` returns the padded input and zero shifts, however
many iterations. -/
theorem align_seq_stationary (T : Tools K) {a : Arr3 K} {iters : Nat} {pad : Nat × Nat}
    {o : AlignOut K} (h : alignSeq T true a iters pad = .ok (some o))
    (hreg : ∀ p : Arr3 K, (∀ m r c, r < a.d1 + 2 * pad.2 → c < a.d2 + 2 * pad.1 →
        ∃ s : ScaleOut K, scale true a = .ok (some s) ∧ p.get m r c = (padZero pad s.prj).get m r c) →
      ∀ m, shifts T p (T.project (T.recon none p)) m = (0, 0))
    {m : Nat} :
    o.sx m = 0 ∧ o.sy m = 0 ∧ ∀ r c, r < a.d1 + 2 * pad.2 → c < a.d2 + 2 * pad.1 →
      o.prj.get m r c = (padZero pad a).get m r c := by
  obtain ⟨s, hs, rfl⟩ := align_seq_some T h
  clear h
  obtain ⟨-, -, h0, hp, -⟩ := scale_some hs
  have hd1 : s.prj.d1 = a.d1 := by rw [hp]
  have hd2 : s.prj.d2 = a.d2 := by rw [hp]
  have key : ∀ n, (∀ m, (seqSt T pad s.prj n).sx m = 0 ∧ (seqSt T pad s.prj n).sy m = 0) ∧
      ∀ m r c, r < a.d1 + 2 * pad.2 → c < a.d2 + 2 * pad.1 →
        (seqSt T pad s.prj n).prj.get m r c = (padZero pad s.prj).get m r c := by
    intro n
    induction n with
    | zero => exact ⟨fun _ => ⟨rfl, rfl⟩, fun _ _ _ _ _ => rfl⟩
    | succ n ih =>
      have hz := hreg (seqSt T pad s.prj n).prj fun m r c hr hc => ⟨s, hs, ih.2 m r c hr hc⟩
      rw [seqSt_succ]
      refine ⟨fun m => ⟨?_, ?_⟩, fun m r c hr hc => ?_⟩
      · show (seqSt T pad s.prj n).sx m + (shifts T _ _ m).1 = 0
        rw [hz, (ih.1 m).1]; simp
      · show (seqSt T pad s.prj n).sy m + (shifts T _ _ m).2 = 0
        rw [hz, (ih.1 m).2]; simp
      · show T.warp.run _ _ ((shifts T _ _ m).2, (shifts T _ _ m).1) _ r c = _
        rw [hz]
        have := T.warp.whole (seqSt T pad s.prj n).prj.d1 (seqSt T pad s.prj n).prj.d2 0 0
          ((seqSt T pad s.prj n).prj.get m) r c
        simp only [Int.cast_zero] at this
        rw [this, (seqSt_dims T pad s.prj n).2.1, (seqSt_dims T pad s.prj n).2.2, hd1, hd2,
          if_pos (by omega), ← ih.2 m r c hr hc]
        congr 1
  refine ⟨((key iters).1 m).1, ((key iters).1 m).2, fun r c hr hc => ?_⟩
  show (seqSt T pad s.prj iters).prj.get m r c * s.scl = _
  rw [(key iters).2 m r c hr hc]
  simp only [padZero, hp]
  split
  · exact div_mul_cancel₀ _ h0
  · exact zero_mul _

/-- C96: the caller's projections are left divided by the scale, by both functions. -/
theorem align_leaves_scaled (T : Tools K) {a : Arr3 K} {iters : Nat} {pad : Nat × Nat} :
    (∀ o, alignSeq T true a iters pad = .ok (some o) →
      ∃ s, scaleFactor a = .ok s ∧ ∀ m r c, o.arg.get m r c = a.get m r c / s) ∧
    ∀ o, alignJoint T true a iters pad = .ok (some o) →
      ∃ s, scaleFactor a = .ok s ∧ ∀ m r c, o.1.arg.get m r c = a.get m r c / s := by
  constructor
  · intro o h
    obtain ⟨s, hs, rfl⟩ := align_seq_some T h
    obtain ⟨-, hf, h0, hp, ha⟩ := scale_some hs
    refine ⟨_, hf, fun m r c => ?_⟩
    show s.arg.get m r c = _
    rw [ha, hp]
  · intro o h
    unfold alignJoint at h
    cases hs : scale true a with
    | error e => rw [hs] at h; cases h
    | ok os =>
      rw [hs] at h
      cases os with
      | none => cases h
      | some s =>
        simp only [bind, Except.bind] at h
        injection h with h
        injection h with h
        obtain ⟨-, hf, h0, hp, ha⟩ := scale_some hs
        refine ⟨_, hf, fun m r c => ?_⟩
        rw [← h]
        show s.arg.get m r c = _
        rw [ha, hp]

/-! ## `align_joint` -/

/-- C96: whatever the shifts found, `align_joint` returns the padded projections unmoved; the aligned
ones — the padded projections moved once by the shifts returned — are thrown away. -/
theorem align_joint_unmoved (T : Tools K) {a : Arr3 K} {iters : Nat} {pad : Nat × Nat}
    {o : AlignOut K} {copy : Arr3 K} (h : alignJoint T true a iters pad = .ok (some (o, copy))) :
    (∀ m r c, o.prj.get m r c = (padZero pad a).get m r c) ∧
    ∃ s : ScaleOut K, scale true a = .ok (some s) ∧ (0 < iters → ∀ m, copy.get m =
      T.warp.run (a.d1 + 2 * pad.2) (a.d2 + 2 * pad.1) (o.sy m, o.sx m)
        ((padZero pad s.prj).get m)) := by
  unfold alignJoint at h
  cases hs : scale true a with
  | error e => rw [hs] at h; cases h
  | ok os =>
    rw [hs] at h
    cases os with
    | none => cases h
    | some s =>
      simp only [bind, Except.bind] at h
      injection h with h
      injection h with h
      injection h with h1 h2
      subst h1; subst h2
      obtain ⟨-, -, h0, hp, -⟩ := scale_some hs
      have hd1 : s.prj.d1 = a.d1 := by rw [hp]
      have hd2 : s.prj.d2 = a.d2 := by rw [hp]
      refine ⟨fun m r c => ?_, s, rfl, fun hi m => ?_⟩
      · simp only [rescale, padZero, hp]
        split
        · exact div_mul_cancel₀ _ h0
        · exact zero_mul _
      · obtain ⟨n, rfl⟩ : ∃ n, iters = n + 1 := ⟨iters - 1, by omega⟩
        dsimp only
        rw [Function.iterate_succ_apply']
        simp only [jointIter, warpAll]
        rw [show (padZero pad s.prj).d1 = a.d1 + 2 * pad.2 by rw [← hd1]; rfl,
          show (padZero pad s.prj).d2 = a.d2 + 2 * pad.1 by rw [← hd2]; rfl]

/-- C96: `conv` is zero for every iteration unless `debug` is set. -/
theorem conv_without_debug (iters : Nat) (err : Nat → K) (n : Nat) (h : n < iters) :
    (convArr false iters err)[n]? = some 0 ∧ (convArr true iters err)[n]? = some (err n) := by
  simp [convArr, h]

end Generic

/-- A `tf.warp` for examples: translations are rounded down (used to show that the assumptions on
`Warp` can be met). -/
def floorWarp : Warp ℚ where
  run dy dz t f r c :=
    if 0 ≤ (r : Int) + ⌊t.2⌋ ∧ (r : Int) + ⌊t.2⌋ < dy ∧ 0 ≤ (c : Int) + ⌊t.1⌋ ∧ (c : Int) + ⌊t.1⌋ < dz
      then f ((r : Int) + ⌊t.2⌋).toNat ((c : Int) + ⌊t.1⌋).toNat else 0
  whole dy dz tx ty f r c := by simp only [Int.floor_intCast]

/-! ## Refuted, and examples -/

/-- Two by two pixels with a single bright one in the corner. -/
def corner : Arr3 ℚ := ⟨1, 2, 2, fun _ r c => if r = 0 ∧ c = 0 then 2 else 0⟩

/-- The pixel the example asks for. -/
def pixelOf (e : Except PyErr (Option (Outcome ℚ))) (m r c : Nat) : Option ℚ :=
  match e with
  | .ok (some o) => some (o.result.get m r c)
  | _ => none

/-- `add_jitter` by one column to the left, then `shift_images` with its negated results in the order
in which they are returned. -/
def undoInOrder : Except PyErr (Option (Outcome ℚ)) :=
  match addJitter floorWarp true corner fun _ => ((-1 : ℚ), (0 : ℚ)) with
  | .ok (some o) => shiftImages floorWarp true o.prj (o.jx.map fun x => -x) (o.jy.map fun x => -x)
  | _ => .ok none

/-- The same in the other order. -/
def undoSwapped : Except PyErr (Option (Outcome ℚ)) :=
  match addJitter floorWarp true corner fun _ => ((-1 : ℚ), (0 : ℚ)) with
  | .ok (some o) => shiftImages floorWarp true o.prj (o.jy.map fun x => -x) (o.jx.map fun x => -x)
  | _ => .ok none

/-- C95, refuted: `shift_images(prj, -sx, -sy)` with the `sx`, `sy` returned by `add_jitter` does not
undo it, although no pixel was lost; with the arguments swapped it does. -/
theorem jitter_not_undone_in_order :
    pixelOf undoInOrder 0 0 0 = some 0 ∧ pixelOf undoSwapped 0 0 0 = some 2 ∧
      corner.get 0 0 0 = 2 := by
  decide +kernel

/-- C95, refuted: a first list of shifts of one moves the image by one row, not horizontally. -/
theorem shift_images_first_vertical :
    pixelOf (shiftImages floorWarp true corner [-1] [0]) 0 1 0 = some 2 ∧
      pixelOf (shiftImages floorWarp true corner [-1] [0]) 0 0 1 = some 0 := by
  decide +kernel

/-- Tools for examples: the simulation has the bright pixel one column to the right of where it is at
first, and registration compares the two upper pixels. -/
def demoTools : Tools ℚ where
  recon _ p := p
  project _ := ⟨1, 2, 2, fun _ r c => if r = 0 ∧ c = 1 then 1 else 0⟩
  blur p := p
  register f g := if f 0 0 = 1 ∧ g 0 1 = 1 then (((0 : Int) : ℚ), ((-1 : Int) : ℚ)) else (((0 : Int) : ℚ), ((0 : Int) : ℚ))
  warp := floorWarp

/-- What the example asks for: two pixels, the shifts and a pixel of the argument afterwards. -/
def seqPeek (e : Except PyErr (Option (AlignOut ℚ))) : Option (ℚ × ℚ × ℚ × ℚ × ℚ) :=
  match e with
  | .ok (some o) => some (o.prj.get 0 0 0, o.prj.get 0 0 1, o.sx 0, o.sy 0, o.arg.get 0 0 0)
  | _ => none

/-- The same for `align_joint`, with the aligned projections. -/
def jointPeek (e : Except PyErr (Option (AlignOut ℚ × Arr3 ℚ))) : Option (ℚ × ℚ × ℚ × ℚ × ℚ × ℚ) :=
  match e with
  | .ok (some o) => some (o.1.prj.get 0 0 0, o.1.prj.get 0 0 1, o.1.sx 0, o.1.sy 0, o.2.get 0 0 0,
      o.2.get 0 0 1)
  | _ => none

/-- `align_seq` aligns, and leaves the caller's array halved. -/
theorem align_seq_demo :
    seqPeek (alignSeq demoTools true corner 2 (0, 0)) = some (0, 2, 0, -1, 1) := by
  decide +kernel

/-- C96, refuted: `align_joint` finds the same shifts but returns the projections unmoved. -/
theorem align_joint_demo :
    jointPeek (alignJoint demoTools true corner 2 (0, 0)) = some (2, 0, 0, -1, 0, 1) := by
  decide +kernel

example : ∃ s, scale true corner = .ok (some s) :=
  scale_defined ⟨0, 0, 0, by decide +kernel, by decide +kernel, by decide +kernel, by decide +kernel⟩

example : maxElem corner = .ok 2 := by decide +kernel

example : maxElem (⟨1, 1, 1, fun _ _ _ => -1⟩ : Arr3 ℚ) = .ok (-1) := by decide +kernel

example : ∀ f g, ∃ i j : Int, demoTools.register f g = ((i : ℚ), (j : ℚ)) := by
  intro f g
  by_cases h : f 0 0 = 1 ∧ g 0 1 = 1
  · exact ⟨0, -1, if_pos h⟩
  · exact ⟨0, 0, if_neg h⟩

/-- The assumptions of `align_seq_corrects` hold in the first iteration of the example. -/
example : (seqIter demoTools (startSt (0, 0) ⟨1, 2, 2, fun _ r c => if r = 0 ∧ c = 0 then 1 else 0⟩)).prj.get 0 0 1 =
    (demoTools.project corner).get 0 0 1 := by
  refine (align_seq_corrects demoTools (startSt (0, 0) ⟨1, 2, 2, fun _ r c => if r = 0 ∧ c = 0 then 1 else 0⟩)
    (m := 0) (sy := 0) (sx := -1) (by decide +kernel) ?_ (r := 0) (c := 1) (by decide) (by decide) (by decide) (by decide)
    (by decide) (by decide)).1
  intro r c hr hc h1 h2 h3 h4
  have hr' : r < 2 := hr
  have hc' : c < 2 := hc
  have h4' : (c : Int) - -1 < 2 := h4
  have : c = 0 := by omega
  subst this
  obtain rfl | rfl : r = 0 ∨ r = 1 := by omega
  · decide +kernel
  · decide +kernel

/-! ## `blur_edges` -/

section Blur

theorem mem_blurRads {dy dz : Nat} {x : ℝ} :
    x ∈ blurRads dy dz ↔ ∃ r c, r < dy ∧ c < dz ∧ blurRad dy dz r c = x := by
  simp only [blurRads, List.mem_flatMap, List.mem_range, List.mem_map]
  constructor
  · rintro ⟨i, hi, j, hj, h⟩; exact ⟨i, j, hi, hj, h⟩
  · rintro ⟨i, j, hi, hj, h⟩; exact ⟨i, hi, j, hj, h⟩

theorem sq_half_le {d r : Nat} (h : r < d) : ((r : ℝ) - d / 2) ^ 2 ≤ (d / 2 : ℝ) ^ 2 := by
  have h1 : (r : ℝ) ≤ d := by exact_mod_cast h.le
  have h2 : (0 : ℝ) ≤ r := Nat.cast_nonneg r
  nlinarith

/-- The largest distance from the centre is that of the first pixel: the frame is measured against
the half diagonal of the image. -/
theorem blurRadMax_eq {dy dz : Nat} (hy : 0 < dy) (hz : 0 < dz) :
    blurRadMax dy dz = .ok (√((dy / 2 : ℝ) ^ 2 + (dz / 2 : ℝ) ^ 2)) := by
  have h00 : blurRad dy dz 0 0 = √((dy / 2 : ℝ) ^ 2 + (dz / 2 : ℝ) ^ 2) := by
    unfold blurRad; congr 1; push_cast; ring
  unfold blurRadMax
  have hm : blurRad dy dz 0 0 ∈ blurRads dy dz := mem_blurRads.2 ⟨0, 0, hy, hz, rfl⟩
  cases he : blurRads dy dz with
  | nil => rw [he] at hm; cases hm
  | cons x xs =>
    obtain ⟨M1, M2⟩ := foldl_max_mem' xs x
    rw [← he] at M1 M2
    dsimp only
    congr 1
    refine le_antisymm ?_ ?_
    · obtain ⟨r, c, hr, hc, e⟩ := mem_blurRads.1 M1
      rw [← e]
      exact Real.sqrt_le_sqrt (add_le_add (sq_half_le hr) (sq_half_le hc))
    · rw [← h00]; exact M2 _ hm

/-- C94: `blur_edges` with `low < high` multiplies every pixel by a weight that depends on its distance
from the centre `(dy/2, dz/2)` only: one inside of `low` times the half diagonal, zero outside of `high`
times the half diagonal, falling linearly between; the caller's array stays. -/
theorem blur_edges_value {a : Arr3 ℝ} {low high : ℝ} (hy : 0 < a.d1) (hz : 0 < a.d2)
    (hlh : low < high) :
    ∃ (o : Arr3 (Option ℝ)) (w : Nat → Nat → ℝ), blurEdges true a low high = .ok (o, a) ∧
      (∀ m r c, o.get m r c = some (a.get m r c * w r c)) ∧
      ∀ r c : Nat, let ρ := √(((r : ℝ) - a.d1 / 2) ^ 2 + ((c : ℝ) - a.d2 / 2) ^ 2)
        let R := √((a.d1 / 2 : ℝ) ^ 2 + (a.d2 / 2 : ℝ) ^ 2)
        (0 ≤ w r c ∧ w r c ≤ 1) ∧ (ρ ≤ low * R → w r c = 1) ∧ (high * R ≤ ρ → w r c = 0) ∧
        (low * R ≤ ρ → ρ ≤ high * R → w r c * ((high - low) * R) = high * R - ρ) := by
  unfold blurEdges
  rw [blurRadMax_eq hy hz]
  have hR : 0 < √((a.d1 / 2 : ℝ) ^ 2 + (a.d2 / 2 : ℝ) ^ 2) := by
    apply Real.sqrt_pos.2
    have : (0 : ℝ) < a.d1 := by exact_mod_cast hy
    positivity
  generalize √((a.d1 / 2 : ℝ) ^ 2 + (a.d2 / 2 : ℝ) ^ 2) = R at hR
  have hlt : low * R < high * R := mul_lt_mul_of_pos_right hlh hR
  have hd : ∀ r c, ∃ w, blurMask a.d1 a.d2 R low high r c = some w ∧
      (0 ≤ w ∧ w ≤ 1) ∧ (blurRad a.d1 a.d2 r c ≤ low * R → w = 1) ∧
      (high * R ≤ blurRad a.d1 a.d2 r c → w = 0) ∧
      (low * R ≤ blurRad a.d1 a.d2 r c → blurRad a.d1 a.d2 r c ≤ high * R →
        w * ((high - low) * R) = high * R - blurRad a.d1 a.d2 r c) := by
    intro r c
    unfold blurMask
    generalize blurRad a.d1 a.d2 r c = ρ
    dsimp only
    have hpos : 0 < high * R - low * R := by linarith
    by_cases h1 : low * R ≤ ρ ∧ ρ ≤ high * R
    · rw [if_pos h1, if_neg hpos.ne']
      refine ⟨_, rfl, ⟨div_nonneg (by linarith) hpos.le, by rw [div_le_one hpos]; linarith⟩,
        fun h => ?_, fun h => ?_, fun _ _ => ?_⟩
      · rw [div_eq_one_iff_eq hpos.ne']; linarith
      · rw [div_eq_zero_iff]; left; linarith
      · rw [sub_mul]; exact div_mul_cancel₀ _ hpos.ne'
    · rw [if_neg h1]
      by_cases h2 : high * R < ρ
      · rw [if_pos h2]
        exact ⟨_, rfl, ⟨le_rfl, zero_le_one⟩, fun h => by linarith, fun _ => rfl,
          fun _ h => by linarith⟩
      · rw [if_neg h2]
        have h3 : ρ < low * R := by
          by_contra hc
          exact h1 ⟨not_lt.1 hc, not_lt.1 h2⟩
        rw [if_pos h3]
        exact ⟨_, rfl, ⟨zero_le_one, le_rfl⟩, fun _ => rfl, fun h => by linarith,
          fun h => by linarith⟩
  choose w hw using hd
  refine ⟨_, w, rfl, fun m r c => ?_, fun r c => (hw r c).2⟩
  dsimp only
  rw [(hw r c).1]; rfl

/-- C94, refuted: with `low = high` every pixel at exactly that distance is undefined; for
`low = high = 1` that is the first pixel of every image. -/
theorem blur_edges_equal_limits {a : Arr3 ℝ} (hy : 0 < a.d1) (hz : 0 < a.d2) :
    ∃ o, blurEdges true a 1 1 = .ok (o, a) ∧ ∀ m, o.get m 0 0 = none := by
  unfold blurEdges
  rw [blurRadMax_eq hy hz]
  refine ⟨_, rfl, fun m => ?_⟩
  have h00 : blurRad a.d1 a.d2 0 0 = √((a.d1 / 2 : ℝ) ^ 2 + (a.d2 / 2 : ℝ) ^ 2) := by
    unfold blurRad; congr 1; push_cast; ring
  simp only [blurMask, h00, one_mul, le_refl, and_self, if_true, sub_self]
  rfl

/-- C94, refuted: the frame is not centred on the image.  Of an image of two by two pixels the default
limits erase the first pixel and keep the last one, its mirror image. -/
theorem blur_edges_lopsided {a : Arr3 ℝ} (hy : a.d1 = 2) (hz : a.d2 = 2) :
    ∃ o, blurEdges true a 0 (4 / 5) = .ok (o, a) ∧
      ∀ m, o.get m 0 0 = some 0 ∧ o.get m 1 1 = some (a.get m 1 1) := by
  obtain ⟨o, w, ho, hv, hw⟩ := blur_edges_value (a := a) (low := 0) (high := 4 / 5) (by omega)
    (by omega) (by norm_num)
  refine ⟨o, ho, fun m => ⟨?_, ?_⟩⟩
  · have := (hw 0 0).2.2.1 ?_
    · rw [hv, this, mul_zero]
    · rw [hy, hz]
      have h : ((0 : Nat) : ℝ) - ((2 : Nat) : ℝ) / 2 = -1 := by norm_num
      have h2 : ((2 : Nat) : ℝ) / 2 = 1 := by norm_num
      rw [h, h2]
      have : (0 : ℝ) ≤ √((-1) ^ 2 + (-1) ^ 2) := Real.sqrt_nonneg _
      have e : √((1 : ℝ) ^ 2 + 1 ^ 2) = √((-1) ^ 2 + (-1) ^ 2) := by norm_num
      rw [e]
      generalize √((-1 : ℝ) ^ 2 + (-1) ^ 2) = q at this
      linarith
  · have := (hw 1 1).2.1 ?_
    · rw [hv, this, mul_one]
    · rw [hy, hz]
      norm_num

end Blur

end Tomopy.Align
