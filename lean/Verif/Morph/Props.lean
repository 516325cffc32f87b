import Verif.Morph.Model
import Mathlib.Algebra.Order.Ring.Rat
import Mathlib.Algebra.Order.Field.Rat
import Mathlib.Algebra.Order.Floor.Semiring
import Mathlib.Tactic.Ring
import Mathlib.Tactic.Linarith
import Mathlib.Tactic.FieldSimp
import Mathlib.Tactic.Positivity
import Mathlib.Tactic.IntervalCases

/-! Padding (C17) and stitching of 360 degree scans (C20). -/
set_option linter.unusedSectionVars false

namespace Tomopy.Morph

/-! ### slices -/

/-- replacing a block of a list by slice assignment -/
theorem set_block {α : Type} (X Y Z src : List α) (start stop : Option Int)
    (h1 : pyIdx (X ++ Y ++ Z).length 0 start = X.length)
    (h2 : pyIdx (X ++ Y ++ Z).length (X ++ Y ++ Z).length stop = X.length + Y.length)
    (hs : src.length = Y.length) :
    pySetSlice (X ++ Y ++ Z) start stop src = .ok (X ++ src ++ Z) := by
  unfold pySetSlice
  simp only [h1, h2]
  rw [if_pos (by omega)]
  congr 3
  · rw [List.append_assoc, List.take_left]
  · rw [Nat.max_eq_right (by omega), ← List.length_append, List.drop_left]

/-- the same with a broadcast single value -/
theorem set_block_one {α : Type} (X Y Z : List α) (v : α) (start stop : Option Int)
    (h1 : pyIdx (X ++ Y ++ Z).length 0 start = X.length)
    (h2 : pyIdx (X ++ Y ++ Z).length (X ++ Y ++ Z).length stop = X.length + Y.length) :
    pySetSlice (X ++ Y ++ Z) start stop [v] = .ok (X ++ List.replicate Y.length v ++ Z) := by
  by_cases hY : Y.length = 1
  · rw [set_block X Y Z [v] start stop h1 h2 (by simp [hY]), hY]
    rfl
  · unfold pySetSlice
    simp only [h1, h2]
    rw [if_neg (by simp only [List.length_singleton]; omega)]
    congr 3
    · rw [List.append_assoc, List.take_left]
    · congr 1
      omega
    · rw [Nat.max_eq_right (by omega), ← List.length_append, List.drop_left]

/-! ### C17 -/

/-- **C17** `pad` accepts exactly the modes 'constant' and 'edge' with their own keywords, and
raises `ValueError` in every other case. -/
theorem pad_check (mode : PadMode) (kws : List String) :
    (∃ m, padCheck mode kws = .ok m ∧ mode = .str m ∧
      ((m = "constant" ∧ ∀ k ∈ kws, k = "constant_values") ∨ (m = "edge" ∧ kws = []))) ∨
    (padCheck mode kws = .error .value ∧
      ¬ ((mode = .str "constant" ∧ ∀ k ∈ kws, k = "constant_values") ∨
         (mode = .str "edge" ∧ kws = []))) := by
  cases mode with
  | other => exact Or.inr ⟨rfl, by rintro (⟨h, _⟩ | ⟨h, _⟩) <;> cases h⟩
  | str s =>
    unfold padCheck padKwargs
    simp only [PadMode.str.injEq]
    split
    · rename_i heq
      split at heq
      · cases heq
      · cases heq
      · rename_i h1 h2
        exact Or.inr ⟨rfl, by rintro (⟨h, _⟩ | ⟨h, _⟩) <;> contradiction⟩
    · rename_i allowed heq
      split at heq
      · cases heq
        split
        · rename_i hall
          refine Or.inl ⟨_, rfl, rfl, Or.inl ⟨rfl, ?_⟩⟩
          intro k hk
          have := List.all_eq_true.1 hall k hk
          simpa using this
        · rename_i hall
          refine Or.inr ⟨rfl, ?_⟩
          rintro (⟨_, h⟩ | ⟨h, _⟩)
          · apply hall
            rw [List.all_eq_true]
            intro k hk
            simp [h k hk]
          · exact absurd h (by decide)
      · cases heq
        split
        · rename_i hall
          refine Or.inl ⟨_, rfl, rfl, Or.inr ⟨rfl, ?_⟩⟩
          cases kws with
          | nil => rfl
          | cons k ks =>
            have := List.all_eq_true.1 hall k (by simp)
            simp at this
        · rename_i hall
          refine Or.inr ⟨rfl, ?_⟩
          rintro (⟨h, _⟩ | ⟨_, h⟩)
          · exact absurd h (by decide)
          · subst h
            exact hall rfl
      · cases heq

theorem padLine_eq {α : Type} (mode : String) (cval : α) (npad : Nat) (l : List α)
    (hm : mode = "constant" ∨ mode = "edge") (hl : l ≠ []) :
    padLine mode cval npad l = .ok ((List.replicate npad
        (if mode = "constant" then cval else l.head hl) ++ l ++
      List.replicate npad (if mode = "constant" then cval else l.getLast hl)).map some) := by
  unfold padLine
  have hsplit : List.replicate (l.length + 2 * npad) (none : Option α)
      = List.replicate npad none ++ List.replicate l.length none ++ List.replicate npad none := by
    rw [List.replicate_append_replicate, List.replicate_append_replicate]
    congr 1
    omega
  have hn : 1 ≤ l.length := List.length_pos_iff.2 hl
  simp only [bind, Except.bind]
  rw [hsplit, set_block _ _ _ (l.map some) _ _
    (by simp only [pyIdx, pyBound, List.length_append, List.length_replicate]; split <;> omega)
    (by simp only [pyIdx, pyBound, List.length_append, List.length_replicate]; split <;> omega)
    (by simp)]
  have k1 : ∀ v : Option α,
      pySetSlice (List.replicate npad none ++ l.map some ++ List.replicate npad none)
          (some 0) (some npad) [v]
      = .ok (List.replicate npad v ++ l.map some ++ List.replicate npad none) := by
    intro v
    have e1 : List.replicate npad none ++ l.map some ++ List.replicate npad (none : Option α)
        = [] ++ List.replicate npad none ++ (l.map some ++ List.replicate npad none) := by simp
    rw [e1, set_block_one _ _ _ v _ _
      (by simp [pyIdx, pyBound])
      (by simp only [pyIdx, pyBound, List.length_append, List.length_replicate, List.length_nil,
            List.length_map]; split <;> omega)]
    simp
  have k2 : ∀ v w : Option α,
      pySetSlice (List.replicate npad v ++ l.map some ++ List.replicate npad none)
        (some (npad + l.length : Nat)) none [w]
      = .ok (List.replicate npad v ++ l.map some ++ List.replicate npad w) := by
    intro v w
    have e2 : List.replicate npad v ++ l.map some ++ List.replicate npad none
        = (List.replicate npad v ++ l.map some) ++ List.replicate npad none ++ [] := by
      simp
    rw [e2, set_block_one _ _ _ w _ _
      (by simp only [pyIdx, pyBound, List.length_append, List.length_replicate, List.length_nil,
            List.length_map]; split <;> omega)
      (by simp [pyIdx]; omega)]
    simp
  rcases hm with rfl | rfl
  · simp only [if_true]
    rw [k1]
    simp only
    rw [k2]
    simp
  · have hhead : (pySlice l (some 0) (some 1)).map some = [some (l.head hl)] := by
      simp only [pySlice]
      have : pyIdx l.length l.length (some 1) - pyIdx l.length 0 (some 0) = 1 := by
        simp only [pyIdx, pyBound]; split <;> omega
      rw [this, show pyIdx l.length 0 (some 0) = 0 by simp [pyIdx, pyBound]]
      cases l with
      | nil => exact absurd rfl hl
      | cons x xs => simp
    have hlast : (pySlice l (some ((l.length : Int) - 1)) (some l.length)).map some
        = [some (l.getLast hl)] := by
      simp only [pySlice]
      have h1 : pyIdx l.length 0 (some ((l.length : Int) - 1)) = l.length - 1 := by
        simp only [pyIdx, pyBound]; split <;> omega
      have h2 : pyIdx l.length l.length (some (l.length : Int)) = l.length := by
        simp only [pyIdx, pyBound]; split <;> omega
      rw [h1, h2, show l.length - (l.length - 1) = 1 by omega]
      rw [List.drop_length_sub_one hl]
      rfl
    rw [hhead, hlast]
    simp only [show ¬ ("edge" = "constant") by decide, if_false, if_true]
    rw [k1]
    simp only
    rw [k2]
    simp

/-- **C17** For every non-empty line, every `npad` and every accepted mode, `pad` succeeds, no
element stays uninitialised, the length grows by `2*npad`, the middle is the input, the border
is the constant or the nearest edge value, and cropping returns the input. -/
theorem pad_correct {α : Type} (mode : PadMode) (kws : List String) (cval : α) (npad : Nat)
    (l : List α) (hl : l ≠ []) (m : String) (hm : padCheck mode kws = .ok m) :
    ∃ out : List α, pad mode kws cval npad l = .ok (out.map some) ∧
      out.length = l.length + 2 * npad ∧
      (∀ i, i < l.length → out[npad + i]? = l[i]?) ∧
      (∀ i, i < npad → out[i]? = some (if m = "constant" then cval else l.head hl) ∧
        out[npad + l.length + i]? = some (if m = "constant" then cval else l.getLast hl)) ∧
      (out.drop npad).take l.length = l := by
  have hmode : m = "constant" ∨ m = "edge" := by
    rcases pad_check mode kws with ⟨m', h1, _, h3⟩ | ⟨h1, _⟩
    · rw [hm] at h1
      cases h1
      rcases h3 with ⟨h, _⟩ | ⟨h, _⟩
      · exact Or.inl h
      · exact Or.inr h
    · rw [hm] at h1; cases h1
  unfold pad
  simp only [hm, bind, Except.bind]
  refine ⟨_, padLine_eq m cval npad l hmode hl, ?_, ?_, ?_, ?_⟩
  · simp; omega
  · intro i hi
    rw [List.append_assoc, List.getElem?_append_right (by simp),
      List.getElem?_append_left (by simp [hi])]
    simp
  · intro i hi
    constructor
    · rw [List.append_assoc, List.getElem?_append_left (by simpa using hi)]
      simp [hi]
    · rw [List.getElem?_append_right (by simp)]
      simp only [List.length_append, List.length_replicate]
      rw [show npad + l.length + i - (npad + l.length) = i by omega]
      simp [hi]
  · rw [List.append_assoc, List.drop_left' (by simp), List.take_left]

example : pad (.str "edge") [] (0 : Nat) 2 [7, 8, 9]
    = .ok (([7, 7, 7, 8, 9, 9, 9] : List Nat).map some) := by decide +kernel

example : pad (.str "constant") ["constant_values"] (5 : Nat) 1 [7, 8]
    = .ok (([5, 7, 8, 5] : List Nat).map some) := by decide +kernel

/-- **C17** The default pad width makes the padded width at least `sqrt 2` times the original
(so that a rotated slice fits), and exceeds that by less than two pixels. -/
theorem getNpad_spec (dim : Nat) :
    2 * (dim : ℝ) ^ 2 ≤ ((dim + 2 * getNpad dim : Nat) : ℝ) ^ 2 ∧
    ((dim + 2 * getNpad dim : Nat) : ℝ) < dim * Real.sqrt 2 + 2 := by
  have hs := Real.sq_sqrt (show (0 : ℝ) ≤ 2 by norm_num)
  have hs1 : 1 ≤ Real.sqrt 2 := by
    rw [Real.one_le_sqrt]; norm_num
  have hd : (0 : ℝ) ≤ dim := Nat.cast_nonneg _
  have h0 : 0 ≤ ((dim : ℝ) * Real.sqrt 2 - dim) / 2 := by
    have : (dim : ℝ) * 1 ≤ dim * Real.sqrt 2 := mul_le_mul_of_nonneg_left hs1 hd
    linarith
  have h1 : ((dim : ℝ) * Real.sqrt 2 - dim) / 2 ≤ getNpad dim := Nat.le_ceil _
  have h2 : (getNpad dim : ℝ) < ((dim : ℝ) * Real.sqrt 2 - dim) / 2 + 1 := Nat.ceil_lt_add_one h0
  push_cast
  constructor
  · have h3 : (dim : ℝ) * Real.sqrt 2 ≤ dim + 2 * getNpad dim := by linarith
    have h4 : 0 ≤ (dim : ℝ) * Real.sqrt 2 := by positivity
    calc 2 * (dim : ℝ) ^ 2 = ((dim : ℝ) * Real.sqrt 2) ^ 2 := by rw [mul_pow, hs]; ring
      _ ≤ ((dim : ℝ) + 2 * getNpad dim) ^ 2 := by
        exact pow_le_pow_left₀ h4 h3 2
  · linarith

/-! ### C20 -/

section
variable {K : Type} [Field K] [LinearOrder K] [IsStrictOrderedRing K]

theorem linspace_length (a b : K) (n : Nat) : (linspace a b n).length = n := by
  simp [linspace]

theorem linspace_get (a b : K) (n j : Nat) (hn : 2 ≤ n) (hj : j < n) :
    (linspace a b n)[j]? = some (a + (b - a) * ((j : K) / ((n - 1 : Nat) : K))) := by
  unfold linspace
  rw [List.getElem?_map, List.getElem?_range hj, Option.map_some, if_neg (by omega)]

/-- the middle part: both products have the length of the weights -/
theorem blend_ok (w x y : List K) (hx : x.length = w.length) (hy : y.length = w.length) :
    (mulRows w x >>= fun p => mulRows w y >>= fun q => addRows p q.reverse)
      = .ok (List.zipWith (· + ·) (List.zipWith (· * ·) w x)
          (List.zipWith (· * ·) w y).reverse) := by
  unfold mulRows
  rw [if_pos hx.symm, if_pos hy.symm]
  simp only [bind, Except.bind, addRows]
  rw [if_pos (by simp [hx, hy])]

theorem blend_get (w x y : List K) (hx : x.length = w.length) (hy : y.length = w.length)
    (j : Nat) (hj : j < w.length) :
    (List.zipWith (· + ·) (List.zipWith (· * ·) w x) (List.zipWith (· * ·) w y).reverse)[j]?
      = some (w.getD j 0 * x.getD j 0
          + w.getD (w.length - 1 - j) 0 * y.getD (w.length - 1 - j) 0) := by
  have hg : ∀ (l : List K) i, i < l.length → l[i]? = some (l.getD i 0) := by
    intro l i hi
    rw [List.getD_eq_getElem?_getD, List.getElem?_eq_getElem hi]
    rfl
  have hzl : (List.zipWith (· * ·) w y).length = w.length := by simp [hy]
  rw [List.getElem?_zipWith, List.getElem?_reverse (by rw [hzl]; exact hj), hzl,
    List.getElem?_zipWith, List.getElem?_zipWith, hg w j hj, hg x j (by omega),
    hg w _ (by omega), hg y _ (by omega)]

theorem stitch_blocks {α : Type} (dz ov : Nat) (A B M : List (Option α)) (h : ov < dz)
    (hA : A.length = dz - ov) (hB : B.length = dz - ov) (hM : M.length = ov) :
    (do
      let out ← pySetSlice (List.replicate (2 * dz - ov) none) (some (-(dz : Int) + ov)) none A
      let out ← pySetSlice out none (some ((dz : Int) - ov)) B
      pySetSlice out (some ((dz : Int) - ov)) (some dz) M) = .ok (B ++ M ++ A) := by
  have e0 : List.replicate (2 * dz - ov) (none : Option α)
      = List.replicate dz none ++ List.replicate (dz - ov) none ++ [] := by
    rw [List.append_nil, List.replicate_append_replicate]; congr 1; omega
  simp only [bind, Except.bind]
  rw [e0, set_block _ _ _ A _ _
    (by simp only [pyIdx, pyBound, List.length_append, List.length_replicate, List.length_nil]
        split <;> omega)
    (by simp only [pyIdx, List.length_append, List.length_replicate, List.length_nil]; omega)
    (by simp [hA])]
  simp only
  have e1 : List.replicate dz (none : Option α) ++ A ++ []
      = [] ++ List.replicate (dz - ov) none ++ (List.replicate ov none ++ A) := by
    rw [List.append_nil, List.nil_append, ← List.append_assoc, List.replicate_append_replicate]
    congr 2; omega
  rw [e1, set_block _ _ _ B _ _ (by simp [pyIdx])
    (by simp only [pyIdx, pyBound, List.length_append, List.length_replicate, List.length_nil]
        split <;> omega)
    (by simp [hB])]
  simp only
  have e2 : [] ++ B ++ (List.replicate ov none ++ A) = B ++ List.replicate ov none ++ A := by simp
  rw [e2, set_block _ _ _ M _ _
    (by simp only [pyIdx, pyBound, List.length_append, List.length_replicate]
        split <;> omega)
    (by simp only [pyIdx, pyBound, List.length_append, List.length_replicate]
        split <;> omega)
    (by simp [hM])]

/-- same blocks, the left one written first (rotation 'right') -/
theorem stitch_blocks' {α : Type} (dz ov : Nat) (A B M : List (Option α)) (h : ov < dz)
    (hA : A.length = dz - ov) (hB : B.length = dz - ov) (hM : M.length = ov) :
    (do
      let out ← pySetSlice (List.replicate (2 * dz - ov) none) none (some ((dz : Int) - ov)) A
      let out ← pySetSlice out (some (-(dz : Int) + ov)) none B
      pySetSlice out (some ((dz : Int) - ov)) (some dz) M) = .ok (A ++ M ++ B) := by
  have e0 : List.replicate (2 * dz - ov) (none : Option α)
      = [] ++ List.replicate (dz - ov) none ++ List.replicate dz none := by
    rw [List.nil_append, List.replicate_append_replicate]; congr 1; omega
  simp only [bind, Except.bind]
  rw [e0, set_block _ _ _ A _ _ (by simp [pyIdx])
    (by simp only [pyIdx, pyBound, List.length_append, List.length_replicate, List.length_nil]
        split <;> omega)
    (by simp [hA])]
  simp only
  have e1 : [] ++ A ++ List.replicate dz (none : Option α)
      = (A ++ List.replicate ov none) ++ List.replicate (dz - ov) none ++ [] := by
    rw [List.append_nil, List.nil_append, List.append_assoc, List.replicate_append_replicate]
    congr 2; omega
  rw [e1, set_block _ _ _ B _ _
    (by simp only [pyIdx, pyBound, List.length_append, List.length_replicate, List.length_nil]
        split <;> omega)
    (by simp only [pyIdx, List.length_append, List.length_replicate, List.length_nil]; omega)
    (by simp [hB])]
  simp only
  rw [List.append_nil, set_block _ _ _ M _ _
    (by simp only [pyIdx, pyBound, List.length_append, List.length_replicate]
        split <;> omega)
    (by simp only [pyIdx, pyBound, List.length_append, List.length_replicate]
        split <;> omega)
    (by simp [hM])]

theorem slice_drop {α : Type} (l : List α) (k : Nat) (hk : k ≤ l.length) :
    pySlice l (some (k : Int)) none = l.drop k := by
  simp only [pySlice]
  have h1 : pyIdx l.length 0 (some (k : Int)) = k := by
    simp only [pyIdx, pyBound]; split <;> omega
  rw [h1]
  exact List.take_of_length_le (by simp [pyIdx])

theorem slice_take {α : Type} (l : List α) (k : Nat) (hk : k ≤ l.length) :
    pySlice l none (some (k : Int)) = l.take k := by
  simp only [pySlice]
  have h1 : pyIdx l.length l.length (some (k : Int)) = k := by
    simp only [pyIdx, pyBound]; split <;> omega
  rw [h1]
  simp [pyIdx]

theorem slice_drop_neg {α : Type} (l : List α) (k : Nat) (h0 : 0 < k) (hk : k ≤ l.length) :
    pySlice l (some (-(k : Int))) none = l.drop (l.length - k) := by
  simp only [pySlice]
  have h1 : pyIdx l.length 0 (some (-(k : Int))) = l.length - k := by
    simp only [pyIdx, pyBound]; split <;> omega
  rw [h1]
  exact List.take_of_length_le (by simp [pyIdx])

theorem slice_take_neg {α : Type} (l : List α) (k : Nat) (h0 : 0 < k) (hk : k ≤ l.length) :
    pySlice l none (some (-(k : Int))) = l.take (l.length - k) := by
  simp only [pySlice]
  have h1 : pyIdx l.length l.length (some (-(k : Int))) = l.length - k := by
    simp only [pyIdx, pyBound]; split <;> omega
  rw [h1]
  simp [pyIdx]

theorem stitch_left_eq (ov : Nat) (a b : List K) (hb : b.length = a.length)
    (h : ov < a.length) :
    stitchRow "left" ov a b = .ok (((b.drop ov).reverse ++
      List.zipWith (· + ·) (List.zipWith (· * ·) (linspace 0 1 ov) (a.take ov))
        (List.zipWith (· * ·) (linspace 0 1 ov) (b.take ov)).reverse ++ a.drop ov).map some) := by
  have hw := linspace_length (0 : K) 1 ov
  have hbl := blend_ok (linspace (0 : K) 1 ov) (a.take ov) (b.take ov)
    (by simp [hw]; omega) (by simp [hw]; omega)
  have hst := stitch_blocks a.length ov ((a.drop ov).map some) ((b.drop ov).reverse.map some)
    ((List.zipWith (· + ·) (List.zipWith (· * ·) (linspace 0 1 ov) (a.take ov))
        (List.zipWith (· * ·) (linspace 0 1 ov) (b.take ov)).reverse).map some) h
    (by simp) (by simp [hb]) (by simp [hw, hb]; omega)
  unfold stitchRow
  rw [slice_drop a ov (by omega), slice_drop b ov (by omega), slice_take a ov (by omega),
    slice_take b ov (by omega)]
  simp only [if_true]
  revert hst hbl
  simp only [bind, Except.bind]
  intro hbl hst
  rcases h1 : pySetSlice (List.replicate (2 * a.length - ov) none)
    (some (-(a.length : Int) + ov)) none ((a.drop ov).map some) with e | o1
  · rw [h1] at hst; cases hst
  · rw [h1] at hst
    simp only at hst ⊢
    rcases h2 : pySetSlice o1 none (some ((a.length : Int) - ov))
      ((b.drop ov).reverse.map some) with e | o2
    · rw [h2] at hst; cases hst
    · rw [h2] at hst
      simp only at hst ⊢
      rcases h3 : mulRows (linspace (0 : K) 1 ov) (a.take ov) with e | p
      · rw [h3] at hbl; cases hbl
      · rw [h3] at hbl
        simp only at hbl ⊢
        rcases h4 : mulRows (linspace (0 : K) 1 ov) (b.take ov) with e | q
        · rw [h4] at hbl; cases hbl
        · rw [h4] at hbl
          simp only at hbl ⊢
          rw [hbl]
          simp only
          rw [hst]
          simp

theorem stitch_right_eq (ov : Nat) (a b : List K) (hb : b.length = a.length)
    (h0 : 0 < ov) (h : ov < a.length) :
    stitchRow "right" ov a b = .ok ((a.take (a.length - ov) ++
      List.zipWith (· + ·) (List.zipWith (· * ·) (linspace 1 0 ov) (a.drop (a.length - ov)))
        (List.zipWith (· * ·) (linspace 1 0 ov) (b.drop (a.length - ov))).reverse ++
      (b.take (a.length - ov)).reverse).map some) := by
  have hw := linspace_length (1 : K) 0 ov
  have hbl := blend_ok (linspace (1 : K) 0 ov) (a.drop (a.length - ov)) (b.drop (a.length - ov))
    (by simp [hw]; omega) (by simp [hw]; omega)
  have hst := stitch_blocks' a.length ov ((a.take (a.length - ov)).map some)
    ((b.take (a.length - ov)).reverse.map some)
    ((List.zipWith (· + ·) (List.zipWith (· * ·) (linspace 1 0 ov) (a.drop (a.length - ov)))
        (List.zipWith (· * ·) (linspace 1 0 ov) (b.drop (a.length - ov))).reverse).map some) h
    (by simp) (by simp [hb]) (by simp [hw, hb]; omega)
  unfold stitchRow
  rw [slice_take_neg a ov h0 (by omega), slice_take_neg b ov h0 (by omega),
    slice_drop_neg a ov h0 (by omega), slice_drop_neg b ov h0 (by omega), hb]
  simp only [show ¬ ("right" = "left") by decide, if_false, if_true]
  revert hst hbl
  simp only [bind, Except.bind]
  intro hbl hst
  rcases h1 : pySetSlice (List.replicate (2 * a.length - ov) none)
    none (some ((a.length : Int) - ov)) ((a.take (a.length - ov)).map some) with e | o1
  · rw [h1] at hst; cases hst
  · rw [h1] at hst
    simp only at hst ⊢
    rcases h2 : pySetSlice o1 (some (-(a.length : Int) + ov)) none
      ((b.take (a.length - ov)).reverse.map some) with e | o2
    · rw [h2] at hst; cases hst
    · rw [h2] at hst
      simp only at hst ⊢
      rcases h3 : mulRows (linspace (1 : K) 0 ov) (a.drop (a.length - ov)) with e | p
      · rw [h3] at hbl; cases hbl
      · rw [h3] at hbl
        simp only at hbl ⊢
        rcases h4 : mulRows (linspace (1 : K) 0 ov) (b.drop (a.length - ov)) with e | q
        · rw [h4] at hbl; cases hbl
        · rw [h4] at hbl
          simp only at hbl ⊢
          rw [hbl]
          simp only
          rw [hst]
          simp

/-- Specification: weight of the first half scan at position `j` of an overlap of `ov` pixels,
rising linearly from 0 to 1. -/
def rampWeight (ov j : Nat) : K := (j : K) / ((ov - 1 : Nat) : K)

theorem rampWeight_range (ov j : Nat) (h2 : 2 ≤ ov) (hj : j < ov) :
    0 ≤ rampWeight (K := K) ov j ∧ rampWeight (K := K) ov j ≤ 1 := by
  have hp : (0 : K) < ((ov - 1 : Nat) : K) := by
    rw [Nat.cast_pos]; omega
  unfold rampWeight
  constructor
  · positivity
  · rw [div_le_one hp]
    exact_mod_cast (by omega : j ≤ ov - 1)

theorem ramp_mirror (ov j : Nat) (h2 : 2 ≤ ov) (hj : j < ov) :
    rampWeight (K := K) ov (ov - 1 - j) = 1 - rampWeight ov j := by
  have hp : ((ov - 1 : Nat) : K) ≠ 0 := by
    rw [Nat.cast_ne_zero]; omega
  unfold rampWeight
  rw [Nat.cast_sub (by omega)]
  field_simp

theorem getD_linspace (a b : K) (ov j : Nat) (h2 : 2 ≤ ov) (hj : j < ov) :
    (linspace a b ov).getD j 0 = a + (b - a) * rampWeight ov j := by
  rw [List.getD_eq_getElem?_getD, linspace_get a b ov j h2 hj]
  rfl

/-- **C20 (partial)** Rotation 'left', `0 ≤ overlap < dz`, `overlap ≠ 1`: the row has length
`2*dz-overlap`, nothing is left uninitialised, the part outside the overlap consists of copies
(the second half mirrored), and inside the overlap it is a convex combination. -/
theorem stitch_left_partial (ov : Nat) (a b : List K) (hb : b.length = a.length)
    (h : ov < a.length) (h1 : ov ≠ 1) :
    ∃ out : List K, stitchRow "left" ov a b = .ok (out.map some) ∧
      out.length = 2 * a.length - ov ∧
      (∀ x, x < a.length - ov → out[x]? = b[a.length - 1 - x]?) ∧
      (∀ x, a.length ≤ x → x < 2 * a.length - ov → out[x]? = a[x - a.length + ov]?) ∧
      (∀ j, j < ov → ∃ w : K, 0 ≤ w ∧ w ≤ 1 ∧ w = rampWeight ov j ∧
        out[a.length - ov + j]?
          = some (w * a.getD j 0 + (1 - w) * b.getD (ov - 1 - j) 0)) := by
  have hw := linspace_length (0 : K) 1 ov
  refine ⟨_, stitch_left_eq ov a b hb h, ?_, ?_, ?_, ?_⟩
  · simp [hw, hb]; omega
  · intro x hx
    rw [List.append_assoc, List.getElem?_append_left (by simp [hb]; omega),
      List.getElem?_reverse (by simp [hb]; omega), List.getElem?_drop]
    congr 1
    simp [hb]; omega
  · intro x hx hx2
    rw [List.getElem?_append_right (by simp [hw, hb]; omega), List.getElem?_drop]
    congr 1
    simp [hw, hb]; omega
  · intro j hj
    have h2 : 2 ≤ ov := by omega
    refine ⟨rampWeight ov j, (rampWeight_range ov j h2 hj).1, (rampWeight_range ov j h2 hj).2,
      rfl, ?_⟩
    rw [List.append_assoc, List.getElem?_append_right (by simp [hb])]
    rw [show a.length - ov + j - (b.drop ov).reverse.length = j by simp [hb]]
    rw [List.getElem?_append_left (by simp [hw, hb]; omega)]
    rw [blend_get _ _ _ (by simp [hw]; omega) (by simp [hw]; omega) j (by rw [hw]; exact hj), hw,
      getD_linspace _ _ _ _ h2 hj, getD_linspace _ _ _ _ h2 (by omega), ramp_mirror ov j h2 hj]
    have t1 : (a.take ov).getD j 0 = a.getD j 0 := by
      simp [List.getD_eq_getElem?_getD, hj]
    have t2 : (b.take ov).getD (ov - 1 - j) 0 = b.getD (ov - 1 - j) 0 := by
      simp [List.getD_eq_getElem?_getD, show ov - 1 - j < ov by omega]
    rw [t1, t2]
    congr 1
    ring

/-- **C20 (partial)** Rotation 'right', `2 ≤ overlap < dz`. -/
theorem stitch_right_partial (ov : Nat) (a b : List K) (hb : b.length = a.length)
    (h2 : 2 ≤ ov) (h : ov < a.length) :
    ∃ out : List K, stitchRow "right" ov a b = .ok (out.map some) ∧
      out.length = 2 * a.length - ov ∧
      (∀ x, x < a.length - ov → out[x]? = a[x]?) ∧
      (∀ x, a.length ≤ x → x < 2 * a.length - ov → out[x]? = b[2 * a.length - ov - 1 - x]?) ∧
      (∀ j, j < ov → ∃ w : K, 0 ≤ w ∧ w ≤ 1 ∧ w = 1 - rampWeight ov j ∧
        out[a.length - ov + j]?
          = some (w * a.getD (a.length - ov + j) 0 + (1 - w) * b.getD (a.length - 1 - j) 0)) := by
  have hw := linspace_length (1 : K) 0 ov
  refine ⟨_, stitch_right_eq ov a b hb (by omega) h, ?_, ?_, ?_, ?_⟩
  · simp [hw, hb]; omega
  · intro x hx
    rw [List.append_assoc, List.getElem?_append_left (by simp; omega), List.getElem?_take]
    simp [hx]
  · intro x hx hx2
    rw [List.getElem?_append_right (by simp [hw, hb]; omega),
      List.getElem?_reverse (by simp [hw, hb]; omega), List.getElem?_take]
    have e : (b.take (a.length - ov)).length - 1 - (x - (a.take (a.length - ov) ++
        List.zipWith (· + ·) (List.zipWith (· * ·) (linspace 1 0 ov) (a.drop (a.length - ov)))
        (List.zipWith (· * ·) (linspace 1 0 ov) (b.drop (a.length - ov))).reverse).length)
        = 2 * a.length - ov - 1 - x := by
      simp [hw, hb]; omega
    rw [e, if_pos (by omega)]
  · intro j hj
    have hr := rampWeight_range (K := K) ov j h2 hj
    refine ⟨1 - rampWeight ov j, by linarith [hr.2], by linarith [hr.1], rfl, ?_⟩
    rw [List.append_assoc, List.getElem?_append_right (by simp)]
    rw [show a.length - ov + j - (a.take (a.length - ov)).length = j by simp]
    rw [List.getElem?_append_left (by simp [hw, hb]; omega)]
    rw [blend_get _ _ _ (by simp [hw]; omega) (by simp [hw]; omega) j (by rw [hw]; exact hj), hw,
      getD_linspace _ _ _ _ h2 hj, getD_linspace _ _ _ _ h2 (by omega), ramp_mirror ov j h2 hj]
    have t1 : (a.drop (a.length - ov)).getD j 0 = a.getD (a.length - ov + j) 0 := by
      simp [List.getD_eq_getElem?_getD, List.getElem?_drop]
    have t2 : (b.drop (a.length - ov)).getD (ov - 1 - j) 0 = b.getD (a.length - 1 - j) 0 := by
      simp only [List.getD_eq_getElem?_getD, List.getElem?_drop]
      congr 3
      omega
    rw [t1, t2]
    congr 1
    ring

example : stitchRow "left" 2 [(1 : ℚ), 2, 3] [10, 20, 30]
    = .ok ([(30 : ℚ), 20, 2, 3].map some) := by decide +kernel

example : stitchRow "left" 3 [(1 : ℚ), 2, 3, 4] [10, 20, 30, 40]
    = .ok ([(40 : ℚ), 30, 11, 3, 4].map some) := by decide +kernel

example : stitchRow "right" 2 [(1 : ℚ), 2, 3] [10, 20, 30]
    = .ok ([(1 : ℚ), 2, 20, 10].map some) := by decide +kernel

/-- **C20 (refutation)** With the default overlap 0 and rotation 'right' (and at least two
pixels) the call fails with a `ValueError` for every data. -/
theorem stitch_right_zero (a b : List K) (h : 2 ≤ a.length) :
    stitchRow "right" 0 a b = .error .value := by
  have e : pySlice a none (some (-((0 : Nat) : Int))) = [] := by
    simp [pySlice, pyIdx, pyBound]
  unfold stitchRow
  rw [e]
  simp only [show ¬ ("right" = "left") by decide, if_false, if_true, bind, Except.bind,
    pySetSlice, List.map_nil]
  rw [if_neg]
  simp only [List.length_nil, pyIdx, pyBound, List.length_replicate]
  split <;> omega

/-- **C20 (refutation)** A full overlap (`overlap = dz ≥ 2`, allowed by the stated range) fails
with a `ValueError` for rotation 'left'. -/
theorem stitch_full_overlap (a b : List K) (h : 2 ≤ a.length) :
    stitchRow "left" a.length a b = .error .value := by
  unfold stitchRow
  rw [slice_drop a a.length (le_refl _)]
  simp only [if_true, bind, Except.bind, pySetSlice, List.drop_length, List.map_nil]
  rw [if_neg]
  simp only [List.length_nil, pyIdx, pyBound, List.length_replicate]
  split <;> omega

/-- **C20 (refutation)** With an overlap of one pixel the weights do not add to one: 'left'
gives 0 there for all data, 'right' the plain sum. -/
theorem stitch_one_pixel (a b : List K) (h : 2 ≤ a.length) (hb : b.length = a.length) :
    (∃ out : List K, stitchRow "left" 1 a b = .ok (out.map some) ∧
      out[a.length - 1]? = some 0) ∧
    (∃ out : List K, stitchRow "right" 1 a b = .ok (out.map some) ∧
      out[a.length - 1]? = some (a.getD (a.length - 1) 0 + b.getD (a.length - 1) 0)) := by
  have hw0 := linspace_length (0 : K) 1 1
  have hw1 := linspace_length (1 : K) 0 1
  have g0 : (linspace (0 : K) 1 1).getD 0 0 = 0 := by simp [linspace]
  have g1 : (linspace (1 : K) 0 1).getD 0 0 = 1 := by simp [linspace]
  constructor
  · refine ⟨_, stitch_left_eq 1 a b hb (by omega), ?_⟩
    rw [List.append_assoc, List.getElem?_append_right (by simp [hb]),
      List.getElem?_append_left (by simp [hw0, hb]; omega),
      show a.length - 1 - (b.drop 1).reverse.length = 0 by simp [hb],
      blend_get _ _ _ (by simp [hw0]; omega) (by simp [hw0]; omega) 0 (by simp [hw0]), hw0, g0]
    simp
  · refine ⟨_, stitch_right_eq 1 a b hb (by omega) (by omega), ?_⟩
    rw [List.append_assoc, List.getElem?_append_right (by simp),
      List.getElem?_append_left (by simp [hw1, hb]; omega),
      show a.length - 1 - (a.take (a.length - 1)).length = 0 by simp,
      blend_get _ _ _ (by simp [hw1]; omega) (by simp [hw1]; omega) 0 (by simp [hw1]), hw1, g1]
    simp [List.getD_eq_getElem?_getD, List.getElem?_drop]

/-- **C20 (refutation)** An unknown rotation is not rejected: the whole row is uninitialised
memory. -/
theorem stitch_unknown_rotation (r : String) (hl : r ≠ "left") (hr : r ≠ "right") (ov : Nat)
    (a b : List K) :
    stitchRow r ov a b = .ok (List.replicate (2 * a.length - ov) none) := by
  unfold stitchRow
  simp only [hl, hr, if_false]
  rfl

/-- **C20** Row `t` of the stack is made from projections `t` and `dx/2 + t`, both inside the
stack for every `t < dx/2`. -/
theorem sino360_rows (rotation : String) (ov dx t y : Nat) (ht : t < dx / 2)
    (data : Nat → Nat → List K) :
    sino360to180 rotation ov dx data t y
      = stitchRow rotation ov (data t y) (data (dx / 2 + t) y) ∧ dx / 2 + t < dx :=
  ⟨rfl, by omega⟩

end

end Tomopy.Morph
