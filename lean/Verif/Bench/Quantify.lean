import Verif.Bench.Props
import Verif.Corr.Model
import Mathlib.Analysis.CStarAlgebra.Matrix

/-! C192: `quantify_difference` of source/tomopy/misc/benchmark.py. -/
set_option linter.unusedSectionVars false

namespace Tomopy.Bench
open Tomopy.Corr Finset
open scoped Matrix.Norms.L2Operator

/-! ### Model -/

/-- misc/benchmark.py:247-248: `reshape([_nrow*_nimg, _ncol])` of the flattened array. -/
def reshape2 (cols : Nat) (l : List ℝ) (r c : Nat) : ℝ := l.getD (r * cols + c) 0

/-- `scipy.ndimage.sobel(axis=0, mode='reflect')` on an array of `R` × `C` (misc/benchmark.py:253-254):
the difference of the next and the previous row, smoothed along the row with 1, 2, 1. -/
def sobel0 (R C : Nat) (x : Nat → Nat → ℝ) (r c : Nat) : ℝ :=
  let d := fun c' => x (reflect R ((r : Int) + 1)) c' - x (reflect R ((r : Int) - 1)) c'
  d (reflect C ((c : Int) - 1)) + 2 * d c + d (reflect C ((c : Int) + 1))

/-- `scipy.ndimage.sobel(axis=1, mode='reflect')` (misc/benchmark.py:256-257). -/
def sobel1 (R C : Nat) (x : Nat → Nat → ℝ) (r c : Nat) : ℝ := sobel0 C R (fun a b => x b a) c r

/-- `numpy.linalg.norm(ord=1)` of a two-dimensional array (misc/benchmark.py:259, 262): the largest of
the sums of the absolute values in a column. -/
def norm1 (R C : Nat) (x : Nat → Nat → ℝ) : ℝ :=
  ((List.range C).map fun c => ∑ r ∈ range R, |x r c|).foldr max 0

/-- `numpy.linalg.norm(ord=2)` of a two-dimensional array (misc/benchmark.py:260, 263): the largest
singular value, which is the norm as an operator between Euclidean spaces. -/
noncomputable def norm2 (R C : Nat) (x : Nat → Nat → ℝ) : ℝ :=
  ‖(Matrix.of fun (i : Fin R) (j : Fin C) => x i j : Matrix (Fin R) (Fin C) ℝ)‖

/-- The numbers returned in line 275 of misc/benchmark.py. -/
structure Report where
  l1pix : ℝ
  l2pix : ℝ
  l1grad : ℝ
  l2grad : ℝ

/-- misc/benchmark.py:238-275 `quantify_difference` for a stack `rec` of `n` images of `rows` × `cols`
pixels, `rows` and `cols` at least 1; `fi`, `fr`: the arrays hold floats.  `_rec[0]` of an empty stack
raises IndexError (243), `reshape` of an array of another size ValueError (247).  What is printed is
not modelled. -/
noncomputable def quantify (fi fr : Bool) (n rows cols : Nat) (img rec : List ℝ) :
    Except PyErr Report :=
  let a := normalize fi img                                            -- 241
  let b := normalize fr rec                                            -- 242
  if n = 0 then .error .index
  else if a.length ≠ rows * n * cols then .error .value                -- 247
  else
    let R := rows * n
    let x := reshape2 cols a
    let y := reshape2 cols b
    let sub := fun r c => x r c - y r c                                -- 251
    let sx := fun r c => sobel0 R cols x r c - sobel0 R cols y r c     -- 253
    let sy := fun r c => sobel1 R cols x r c - sobel1 R cols y r c     -- 256
    .ok ⟨norm1 R cols sub, norm2 R cols sub, norm1 R cols sx + norm1 R cols sy,
      norm2 R cols sx + norm2 R cols sy⟩

/-! ### Specification -/

/-- The L1 norm: the sum of all absolute values. -/
def entries1 (R C : Nat) (x : Nat → Nat → ℝ) : ℝ := ∑ r ∈ range R, ∑ c ∈ range C, |x r c|

/-- The L2 norm: the root of the sum of all squares. -/
noncomputable def entries2 (R C : Nat) (x : Nat → Nat → ℝ) : ℝ :=
  Real.sqrt (∑ r ∈ range R, ∑ c ∈ range C, x r c ^ 2)

/-- Two images that differ only in brightness and contrast. -/
def SameUpToContrast (img rec : List ℝ) : Prop := ∃ a b : ℝ, 0 < a ∧ img = rec.map fun x => a * x + b

/-! ### The norms -/

theorem le_foldr_max (l : List ℝ) (x : ℝ) (hx : x ∈ l) : x ≤ l.foldr max 0 := by
  induction l with
  | nil => cases hx
  | cons y l ih =>
    rcases List.mem_cons.1 hx with rfl | h
    · exact le_max_left _ _
    · exact le_trans (ih h) (le_max_right _ _)

theorem foldr_max_le (l : List ℝ) (b : ℝ) (hb : 0 ≤ b) (h : ∀ x ∈ l, x ≤ b) : l.foldr max 0 ≤ b := by
  induction l with
  | nil => exact hb
  | cons y l ih =>
    exact max_le (h _ List.mem_cons_self) (ih fun x hx => h x (List.mem_cons_of_mem _ hx))

theorem foldr_max_mem (l : List ℝ) : l.foldr max 0 = 0 ∨ l.foldr max 0 ∈ l := by
  induction l with
  | nil => exact Or.inl rfl
  | cons y l ih =>
    rw [List.foldr_cons]
    rcases max_choice y (l.foldr max 0) with h | h
    · rw [h]; exact Or.inr List.mem_cons_self
    · rw [h]
      rcases ih with h' | h'
      · exact Or.inl h'
      · exact Or.inr (List.mem_cons_of_mem _ h')

theorem colSum_le_norm1 (R C : Nat) (x : Nat → Nat → ℝ) (c : Nat) (hc : c < C) :
    ∑ r ∈ range R, |x r c| ≤ norm1 R C x :=
  le_foldr_max _ _ (List.mem_map.2 ⟨c, List.mem_range.2 hc, rfl⟩)

theorem norm1_nonneg (R C : Nat) (x : Nat → Nat → ℝ) : 0 ≤ norm1 R C x := by
  unfold norm1
  induction (List.range C).map fun c => ∑ r ∈ range R, |x r c| with
  | nil => exact le_rfl
  | cons y l ih => exact le_trans ih (le_max_right _ _)

theorem entries1_cols (R C : Nat) (x : Nat → Nat → ℝ) :
    entries1 R C x = ∑ c ∈ range C, ∑ r ∈ range R, |x r c| := Finset.sum_comm

/-- The column that gives the norm. -/
theorem norm1_attained (R C : Nat) (x : Nat → Nat → ℝ) (hC : 0 < C) :
    ∃ c < C, norm1 R C x = ∑ r ∈ range R, |x r c| := by
  rcases foldr_max_mem ((List.range C).map fun c => ∑ r ∈ range R, |x r c|) with h | h
  · refine ⟨0, hC, le_antisymm ?_ (colSum_le_norm1 R C x 0 hC)⟩
    unfold norm1
    rw [h]
    exact sum_nonneg fun _ _ => abs_nonneg _
  · obtain ⟨c, hc, e⟩ := List.mem_map.1 h
    exact ⟨c, List.mem_range.1 hc, e.symm⟩

/-- **C192** The reported L1 norm lies between the mean over the columns and the L1 norm. -/
theorem norm1_bounds (R C : Nat) (x : Nat → Nat → ℝ) (hC : 0 < C) :
    norm1 R C x ≤ entries1 R C x ∧ entries1 R C x ≤ C * norm1 R C x := by
  rw [entries1_cols]
  constructor
  · obtain ⟨c, hc, e⟩ := norm1_attained R C x hC
    rw [e]
    exact single_le_sum (f := fun c => ∑ r ∈ range R, |x r c|)
      (fun c _ => sum_nonneg fun _ _ => abs_nonneg _) (mem_range.2 hc)
  · calc _ ≤ ∑ _c ∈ range C, norm1 R C x :=
          sum_le_sum fun c hc => colSum_le_norm1 R C x c (mem_range.1 hc)
      _ = _ := by rw [sum_const, card_range, nsmul_eq_mul]

/-- **C192** The reported L1 norm is the L1 norm exactly if there are differences in at most one
column. -/
theorem norm1_eq_iff (R C : Nat) (x : Nat → Nat → ℝ) (hC : 0 < C) :
    norm1 R C x = entries1 R C x ↔
      ∃ c < C, ∀ c' < C, c' ≠ c → ∀ r < R, x r c' = 0 := by
  rw [entries1_cols]
  have nn : ∀ c, 0 ≤ ∑ r ∈ range R, |x r c| := fun c => sum_nonneg fun _ _ => abs_nonneg _
  constructor
  · intro h
    obtain ⟨c, hc, e⟩ := norm1_attained R C x hC
    refine ⟨c, hc, fun c' hc' hne r hr => ?_⟩
    rw [e, ← add_sum_erase _ _ (mem_range.2 hc)] at h
    have h0 : ∑ c ∈ (range C).erase c, ∑ r ∈ range R, |x r c| = 0 := by linarith
    have h1 := (sum_eq_zero_iff_of_nonneg fun c _ => nn c).1 h0 c'
      (mem_erase.2 ⟨hne, mem_range.2 hc'⟩)
    exact abs_eq_zero.1 ((sum_eq_zero_iff_of_nonneg fun r _ => abs_nonneg _).1 h1 r (mem_range.2 hr))
  · rintro ⟨c, hc, h⟩
    refine le_antisymm (by rw [← entries1_cols]; exact (norm1_bounds R C x hC).1) ?_
    rw [sum_eq_single c]
    · exact colSum_le_norm1 R C x c hc
    · intro c' hc' hne
      exact sum_eq_zero fun r hr => by rw [h c' (mem_range.1 hc') hne r (mem_range.1 hr), abs_zero]
    · intro hn
      exact absurd (mem_range.2 hc) hn

theorem norm1_eq_zero (R C : Nat) (x : Nat → Nat → ℝ) (hC : 0 < C) :
    norm1 R C x = 0 ↔ ∀ r < R, ∀ c < C, x r c = 0 := by
  constructor
  · intro h r hr c hc
    have h1 := colSum_le_norm1 R C x c hc
    rw [h] at h1
    have h2 := le_antisymm h1 (sum_nonneg fun _ _ => abs_nonneg _)
    exact abs_eq_zero.1 ((sum_eq_zero_iff_of_nonneg fun r _ => abs_nonneg _).1 h2 r (mem_range.2 hr))
  · intro h
    obtain ⟨c, hc, e⟩ := norm1_attained R C x hC
    rw [e]
    exact sum_eq_zero fun r hr => by rw [h r (mem_range.1 hr) c hc, abs_zero]

theorem norm1_neg (R C : Nat) (x : Nat → Nat → ℝ) : norm1 R C (fun r c => -x r c) = norm1 R C x := by
  unfold norm1
  simp only [abs_neg]

theorem norm2_nonneg (R C : Nat) (x : Nat → Nat → ℝ) : 0 ≤ norm2 R C x := norm_nonneg _

theorem norm2_neg (R C : Nat) (x : Nat → Nat → ℝ) : norm2 R C (fun r c => -x r c) = norm2 R C x := by
  unfold norm2
  rw [← norm_neg]
  congr 1
  ext i j
  simp

theorem norm2_eq_zero (R C : Nat) (x : Nat → Nat → ℝ) :
    norm2 R C x = 0 ↔ ∀ r < R, ∀ c < C, x r c = 0 := by
  unfold norm2
  rw [norm_eq_zero]
  constructor
  · intro h r hr c hc
    have := congrFun (congrFun h ⟨r, hr⟩) ⟨c, hc⟩
    simpa using this
  · intro h
    ext i j
    simpa using h i i.2 j j.2

/-- **C192** The reported L2 norm is at most the L2 norm. -/
theorem norm2_le (R C : Nat) (x : Nat → Nat → ℝ) : norm2 R C x ≤ entries2 R C x := by
  unfold norm2
  rw [Matrix.l2_opNorm_def]
  refine ContinuousLinearMap.opNorm_le_bound _ (Real.sqrt_nonneg _) fun v => ?_
  have e : ∀ i, (((Matrix.toEuclideanLin (𝕜 := ℝ)).trans LinearMap.toContinuousLinearMap
      (Matrix.of fun (i : Fin R) (j : Fin C) => x i j)) v) i = ∑ j : Fin C, x i j * v j := by
    intro i
    rfl
  rw [EuclideanSpace.norm_eq, EuclideanSpace.norm_eq]
  unfold entries2
  rw [← Real.sqrt_mul (sum_nonneg fun _ _ => sum_nonneg fun _ _ => sq_nonneg _)]
  refine Real.sqrt_le_sqrt ?_
  rw [sum_mul, ← Fin.sum_univ_eq_sum_range (fun r => (∑ c ∈ range C, x r c ^ 2) *
    ∑ i : Fin C, ‖v.ofLp i‖ ^ 2)]
  refine sum_le_sum fun i _ => ?_
  rw [Real.norm_eq_abs, sq_abs]
  have := sum_mul_sq_le_sq_mul_sq univ (fun j : Fin C => x i j) (fun j => v j)
  rw [← Fin.sum_univ_eq_sum_range (fun c => x i c ^ 2)]
  simp only [Real.norm_eq_abs, sq_abs]
  exact this

/-! ### The gradients -/

theorem reflect_in {n i : Nat} (h : i < n) : reflect n (i : Int) = i := by
  unfold reflect
  rw [Int.emod_eq_of_lt (by omega) (by omega)]
  simp [h]

theorem reflect_low {n : Nat} (h : 0 < n) : reflect n ((0 : Nat) - 1 : Int) = 0 := by
  unfold reflect
  have e : (((0 : Nat) : Int) - 1) % (2 * n) = 2 * n - 1 := by
    rw [← Int.add_emod_right]
    rw [Int.emod_eq_of_lt (by omega) (by omega)]
    omega
  rw [e]
  dsimp only
  rw [if_neg (by omega)]
  omega

theorem reflect_high {n : Nat} (h : 0 < n) : reflect n ((n - 1 : Nat) + 1 : Int) = n - 1 := by
  unfold reflect
  rw [Int.emod_eq_of_lt (by omega) (by omega)]
  dsimp only
  rw [if_neg (by omega)]
  omega

theorem reflect_next {n i : Nat} (h : i + 1 < n) : reflect n ((i : Int) + 1) = i + 1 := by
  have := reflect_in h
  push_cast at this
  exact this

theorem reflect_prev {n i : Nat} (h : i + 1 < n) : reflect n (((i + 1 : Nat) : Int) - 1) = i := by
  have := reflect_in (n := n) (i := i) (by omega)
  rw [← this]
  congr 1
  omega

/-- Smoothing with 1, 2, 1 and reflection at the ends loses nothing. -/
theorem smooth_injective (n : Nat) (v : Nat → ℝ)
    (h : ∀ c < n, v (reflect n ((c : Int) - 1)) + 2 * v c + v (reflect n ((c : Int) + 1)) = 0) :
    ∀ c < n, v c = 0 := by
  intro c0 hc0
  have hn : 0 < n := by omega
  have key : ∀ c, c < n → v c = (-1) ^ c * (2 * c + 1) * v 0 := by
    intro c
    induction c using Nat.strong_induction_on with
    | _ c ih =>
      intro hc
      match c with
      | 0 => simp
      | 1 =>
        have h0 := h 0 hn
        rw [reflect_low hn, show ((0 : Nat) : Int) + 1 = ((0 : Nat) : Int) + 1 from rfl,
          reflect_next hc] at h0
        norm_num at h0 ⊢
        linarith
      | c + 2 =>
        have h1 := h (c + 1) (by omega)
        rw [reflect_prev (by omega), reflect_next (by omega)] at h1
        have a := ih c (by omega) (by omega)
        have b := ih (c + 1) (by omega) (by omega)
        have e : v (c + 1 + 1) = -v c - 2 * v (c + 1) := by linarith
        rw [e, a, b]
        push_cast
        ring
  have h0 : v 0 = 0 := by
    have hl := h (n - 1) (by omega)
    rw [reflect_high hn] at hl
    rcases Nat.lt_or_ge 1 n with h1 | h1
    · obtain ⟨k, rfl⟩ : ∃ k, n = k + 2 := ⟨n - 2, by omega⟩
      rw [show k + 2 - 1 = k + 1 by omega, reflect_prev (by omega), key k (by omega),
        key (k + 1) (by omega)] at hl
      have : (-1 : ℝ) ^ k * (-(4 * k + 8)) * v 0 = 0 := by
        rw [← hl]; push_cast; ring
      have hk : (-(4 * (k : ℝ) + 8)) ≠ 0 := neg_ne_zero.2 (by positivity)
      rcases mul_eq_zero.1 this with h2 | h2
      · exact absurd h2 (mul_ne_zero (pow_ne_zero _ (by norm_num)) hk)
      · exact h2
    · obtain rfl : n = 1 := by omega
      have e : reflect 1 (((1 - 1 : Nat) : Int) - 1) = 0 := by decide
      rw [e] at hl
      norm_num at hl
      linarith
  rw [key c0 hc0, h0, mul_zero]

/-- If every row equals the row after next, also at the reflecting ends, all rows are equal. -/
theorem rows_equal (n : Nat) (v : Nat → ℝ)
    (h : ∀ r < n, v (reflect n ((r : Int) + 1)) - v (reflect n ((r : Int) - 1)) = 0) :
    ∀ r < n, v r = v 0 := by
  intro r
  induction r using Nat.strong_induction_on with
  | _ r ih =>
    intro hr
    match r with
    | 0 => rfl
    | 1 =>
      have h0 := h 0 (by omega)
      rw [reflect_low (by omega), reflect_next hr] at h0
      exact sub_eq_zero.1 h0
    | r + 2 =>
      have h1 := h (r + 1) (by omega)
      rw [reflect_prev (by omega), reflect_next (by omega)] at h1
      rw [sub_eq_zero.1 h1]
      exact ih r (by omega) (by omega)

theorem sobel0_sub (R C : Nat) (x y : Nat → Nat → ℝ) (r c : Nat) :
    sobel0 R C x r c - sobel0 R C y r c = sobel0 R C (fun r c => x r c - y r c) r c := by
  unfold sobel0
  dsimp only
  ring

theorem sobel1_sub (R C : Nat) (x y : Nat → Nat → ℝ) (r c : Nat) :
    sobel1 R C x r c - sobel1 R C y r c = sobel1 R C (fun r c => x r c - y r c) r c := by
  unfold sobel1
  rw [sobel0_sub]

/-- The first gradient vanishes only if all rows are equal. -/
theorem sobel0_zero (R C : Nat) (d : Nat → Nat → ℝ)
    (h : ∀ r < R, ∀ c < C, sobel0 R C d r c = 0) : ∀ r < R, ∀ c < C, d r c = d 0 c := by
  intro r hr c hc
  refine rows_equal R (fun r => d r c) (fun r hr => ?_) r hr
  exact smooth_injective C (fun c => d (reflect R ((r : Int) + 1)) c - d (reflect R ((r : Int) - 1)) c)
    (h r hr) c hc

theorem sobel0_const (R C : Nat) (k : ℝ) (r c : Nat) : sobel0 R C (fun _ _ => k) r c = 0 := by
  unfold sobel0
  simp

theorem reflect_lt {n : Nat} (h : 0 < n) (i : Int) : reflect n i < n := by
  unfold reflect
  have h1 := Int.emod_nonneg i (show (2 * (n : Int)) ≠ 0 by omega)
  have h2 := Int.emod_lt_of_pos i (show (0 : Int) < 2 * n by omega)
  dsimp only
  split <;> omega

theorem sobel0_congr (R C : Nat) (x y : Nat → Nat → ℝ) (h : ∀ r < R, ∀ c < C, x r c = y r c)
    (r c : Nat) (hr : r < R) (hc : c < C) : sobel0 R C x r c = sobel0 R C y r c := by
  have p := reflect_lt (n := R) (by omega) ((r : Int) + 1)
  have q := reflect_lt (n := R) (by omega) ((r : Int) - 1)
  have s := reflect_lt (n := C) (by omega) ((c : Int) + 1)
  have t := reflect_lt (n := C) (by omega) ((c : Int) - 1)
  unfold sobel0
  dsimp only
  rw [h _ p _ s, h _ p _ t, h _ p _ hc, h _ q _ s, h _ q _ t, h _ q _ hc]

/-- Both gradients vanish exactly for constant images. -/
theorem gradients_zero_iff (R C : Nat) (d : Nat → Nat → ℝ) (hR : 0 < R) :
    ((∀ r < R, ∀ c < C, sobel0 R C d r c = 0) ∧ ∀ r < R, ∀ c < C, sobel1 R C d r c = 0) ↔
      ∀ r < R, ∀ c < C, d r c = d 0 0 := by
  constructor
  · rintro ⟨h, h'⟩ r hr c hc
    rw [sobel0_zero R C d h r hr c hc]
    exact sobel0_zero C R (fun a b => d b a) (fun r hr c hc => h' c hc r hr) c hc 0 hR
  · intro h
    refine ⟨fun r hr c hc => ?_, fun r hr c hc => ?_⟩
    · rw [sobel0_congr R C d (fun _ _ => d 0 0) h r c hr hc, sobel0_const]
    · unfold sobel1
      rw [sobel0_congr C R (fun a b => d b a) (fun _ _ => d 0 0) (fun r hr c hc => h c hc r hr) c r hc
        hr, sobel0_const]

/-! ### quantify_difference -/

theorem normalize_length (f : Bool) (l : List ℝ) : (normalize f l).length = l.length := by
  unfold normalize
  split
  · rfl
  · dsimp only
    split
    · rfl
    · split
      · split <;> simp
      · simp

/-- **C192** It raises exactly if the reconstruction has no image (IndexError) or the sizes differ
(ValueError). -/
theorem quantify_raises (fi fr : Bool) (n rows cols : Nat) (img rec : List ℝ) (e : PyErr) :
    quantify fi fr n rows cols img rec = .error e ↔
      (n = 0 ∧ e = .index) ∨ (n ≠ 0 ∧ img.length ≠ rows * n * cols ∧ e = .value) := by
  unfold quantify
  dsimp only
  rw [normalize_length]
  split
  · rename_i h
    simp only [Except.error.injEq, h, true_and, ne_eq, not_true, false_and, or_false]
    exact eq_comm
  · rename_i h
    split
    · rename_i h'
      simp only [Except.error.injEq, h, false_and, ne_eq, not_false_iff, true_and, false_or]
      constructor
      · rintro rfl; exact ⟨h', rfl⟩
      · rintro ⟨_, rfl⟩; rfl
    · rename_i h'
      simp only [reduceCtorEq, h, false_and, false_or, false_iff]
      rintro ⟨_, h2, _⟩
      exact h' h2

/-- The four numbers of a call that does not raise. -/
theorem quantify_ok (fi fr : Bool) (n rows cols : Nat) (img rec : List ℝ) (rep : Report)
    (h : quantify fi fr n rows cols img rec = .ok rep) :
    n ≠ 0 ∧ img.length = rows * n * cols ∧
    rep = (let d := fun r c => reshape2 cols (normalize fi img) r c - reshape2 cols (normalize fr rec) r c
      ⟨norm1 (rows * n) cols d, norm2 (rows * n) cols d,
        norm1 (rows * n) cols (sobel0 (rows * n) cols d) + norm1 (rows * n) cols (sobel1 (rows * n) cols d),
        norm2 (rows * n) cols (sobel0 (rows * n) cols d)
          + norm2 (rows * n) cols (sobel1 (rows * n) cols d)⟩) := by
  unfold quantify at h
  dsimp only at h
  rw [normalize_length] at h
  split at h
  · cases h
  · rename_i h0
    split at h
    · cases h
    · rename_i h1
      rw [Except.ok.injEq] at h
      refine ⟨h0, not_not.1 h1, ?_⟩
      rw [← h]
      simp only [sobel0_sub, sobel1_sub]

/-- Two float images have the same normalised image exactly if they differ only in brightness and
contrast. -/
theorem normalize_eq_iff (img rec : List ℝ) (h0 : img ≠ []) (hl : img.length = rec.length) :
    normalize true img = normalize true rec ↔ SameUpToContrast img rec := by
  have h0' : rec ≠ [] := by rintro rfl; exact h0 (List.length_eq_zero_iff.1 hl)
  constructor
  · intro h
    obtain ⟨m, M, _, _, hr⟩ := exists_range img h0
    obtain ⟨m', M', _, _, hr'⟩ := exists_range rec h0'
    have cst : ∀ {l : List ℝ} {m : ℝ}, Range l m m → ∀ x ∈ l, x = m :=
      fun h x hx => le_antisymm (h.2.2 x hx).2 (h.2.2 x hx).1
    rcases (hr.2.2 m hr.1).2.lt_or_eq with hlt | rfl
    · rcases (hr'.2.2 m' hr'.1).2.lt_or_eq with hlt' | rfl
      · have p : 0 < M - m := sub_pos.2 hlt
        have p' : 0 < M' - m' := sub_pos.2 hlt'
        refine ⟨(M - m) / (M' - m'), m - (M - m) / (M' - m') * m', by positivity, ?_⟩
        rw [normalize_value hr hlt, normalize_value hr' hlt'] at h
        refine List.ext_getElem (by simpa using hl) fun k k1 k2 => ?_
        have := List.getElem_of_eq h (i := k) (by simpa using k1)
        rw [List.getElem_map, List.getElem_map] at this
        rw [List.getElem_map]
        have e : (img[k] - m) / (M - m) = (rec[k]'(by simpa using k2) - m') / (M' - m') := by
          have : 2 * ((img[k] - m) / (M - m)) = 2 * ((rec[k]'(by simpa using k2) - m') / (M' - m')) := by
            rw [← mul_div_assoc, ← mul_div_assoc]; linarith
          linarith
        have e2 : img[k] - m = (M - m) * ((rec[k]'(by simpa using k2) - m') / (M' - m')) := by
          rw [← e]; field_simp
        have e3 : img[k] = m + (M - m) * ((rec[k]'(by simpa using k2) - m') / (M' - m')) := by
          linarith
        rw [e3]; ring
      · exfalso
        have a := (normalize_isRange hr hlt).2.1
        rw [h, normalize_const true hr'] at a
        obtain ⟨x, _, hx⟩ := List.mem_map.1 a
        norm_num at hx
    · rcases (hr'.2.2 m' hr'.1).2.lt_or_eq with hlt' | rfl
      · exfalso
        have a := (normalize_isRange hr' hlt').2.1
        rw [← h, normalize_const true hr] at a
        obtain ⟨x, _, hx⟩ := List.mem_map.1 a
        norm_num at hx
      · refine ⟨1, m - m', one_pos, ?_⟩
        refine List.ext_getElem (by simpa using hl) fun k k1 k2 => ?_
        rw [List.getElem_map, cst hr _ (List.getElem_mem k1),
          cst hr' _ (List.getElem_mem (by simpa using k2))]
        ring
  · rintro ⟨a, b, ha, rfl⟩
    exact normalize_affine rec a b ha

theorem reshape_eq (cols R : Nat) (a b : List ℝ) (hc : 0 < cols) (ha : a.length = R * cols)
    (hb : b.length = R * cols) :
    (∀ r < R, ∀ c < cols, reshape2 cols a r c = reshape2 cols b r c) ↔ a = b := by
  constructor
  · intro h
    refine List.ext_getElem (by omega) fun k k1 k2 => ?_
    have hk : k / cols < R := by
      rw [Nat.div_lt_iff_lt_mul hc]; omega
    have := h (k / cols) hk (k % cols) (Nat.mod_lt _ hc)
    unfold reshape2 at this
    rw [Nat.div_add_mod' k cols] at this
    rwa [List.getD_eq_getElem?_getD, List.getD_eq_getElem?_getD, List.getElem?_eq_getElem k1,
      List.getElem?_eq_getElem k2] at this
  · rintro rfl _ _ _ _; rfl

/-- **C192** Each of the four numbers is zero exactly if the two float images differ only in
brightness and contrast. -/
theorem quantify_zero_iff (n rows cols : Nat) (img rec : List ℝ) (rep : Report) (hr : 0 < rows)
    (hc : 0 < cols) (hl : rec.length = rows * n * cols)
    (h : quantify true true n rows cols img rec = .ok rep) :
    (rep.l1pix = 0 ↔ SameUpToContrast img rec) ∧ (rep.l2pix = 0 ↔ SameUpToContrast img rec) ∧
    (rep.l1grad = 0 ↔ SameUpToContrast img rec) ∧ (rep.l2grad = 0 ↔ SameUpToContrast img rec) := by
  obtain ⟨hn, hi, e⟩ := quantify_ok _ _ _ _ _ _ _ _ h
  have hR : 0 < rows * n := Nat.mul_pos hr (by omega)
  have hne : img ≠ [] := by
    rintro rfl
    have : 0 < rows * n * cols := Nat.mul_pos hR hc
    simp at hi
    omega
  have hne' : rec ≠ [] := by
    rintro rfl
    have : 0 < rows * n * cols := Nat.mul_pos hR hc
    simp at hl
    omega
  rw [← normalize_eq_iff img rec hne (by omega),
    ← reshape_eq cols (rows * n) _ _ hc (by rw [normalize_length]; exact hi)
      (by rw [normalize_length]; exact hl)]
  set x := reshape2 cols (normalize true img) with hx
  set y := reshape2 cols (normalize true rec) with hy
  have cst : (∀ r < rows * n, ∀ c < cols, x r c - y r c = x 0 0 - y 0 0) ↔
      ∀ r < rows * n, ∀ c < cols, x r c = y r c := by
    constructor
    · intro hk
      obtain ⟨_, m1, b1⟩ := normalize_range img hne
      obtain ⟨_, m2, b2⟩ := normalize_range rec hne'
      have place : ∀ l : List ℝ, l.length = rows * n * cols → ∀ v ∈ l,
          ∃ r < rows * n, ∃ c < cols, reshape2 cols l r c = v := by
        intro l hlen v hv
        obtain ⟨k, k1, rfl⟩ := List.mem_iff_getElem.1 hv
        refine ⟨k / cols, by rw [Nat.div_lt_iff_lt_mul hc]; omega, k % cols, Nat.mod_lt _ hc, ?_⟩
        unfold reshape2
        rw [Nat.div_add_mod' k cols, List.getD_eq_getElem?_getD, List.getElem?_eq_getElem k1]
        rw [Option.getD_some]
      have mem : ∀ l : List ℝ, l.length = rows * n * cols → ∀ r < rows * n, ∀ c < cols,
          reshape2 cols l r c ∈ l := by
        intro l hlen r hr c hc
        have hb : r * cols + c < l.length := by
          rw [hlen]
          calc r * cols + c < r * cols + cols := by omega
            _ = (r + 1) * cols := by ring
            _ ≤ rows * n * cols := Nat.mul_le_mul_right _ hr
        unfold reshape2
        rw [List.getD_eq_getElem?_getD, List.getElem?_eq_getElem hb, Option.getD_some]
        exact List.getElem_mem hb
      have la : (normalize true img).length = rows * n * cols := by rw [normalize_length]; exact hi
      have lb : (normalize true rec).length = rows * n * cols := by rw [normalize_length]; exact hl
      obtain ⟨r1, hr1, c1, hc1, e1⟩ := place _ la _ m1
      obtain ⟨r2, hr2, c2, hc2, e2⟩ := place _ lb _ m2
      have k1 := hk r1 hr1 c1 hc1
      have k2 := hk r2 hr2 c2 hc2
      have q1 := (b2 _ (mem _ lb r1 hr1 c1 hc1)).1
      have q2 := (b1 _ (mem _ la r2 hr2 c2 hc2)).1
      rw [← hx] at e1 q2
      rw [← hy] at e2 q1
      rw [e1] at k1
      rw [e2] at k2
      have : x 0 0 - y 0 0 = 0 := by linarith
      intro r hr c hc
      have := hk r hr c hc
      linarith
    · intro hk r hr c hc
      rw [hk r hr c hc, hk 0 hR 0 (by omega), sub_self, sub_self]
  have pix : (∀ r < rows * n, ∀ c < cols, x r c - y r c = 0) ↔
      ∀ r < rows * n, ∀ c < cols, x r c = y r c := by
    simp only [sub_eq_zero]
  have grad := gradients_zero_iff (rows * n) cols (fun r c => x r c - y r c) hR
  rw [e]
  dsimp only
  refine ⟨?_, ?_, ?_, ?_⟩
  · rw [norm1_eq_zero _ _ _ hc, pix]
  · rw [norm2_eq_zero, pix]
  · rw [add_eq_zero_iff_of_nonneg (norm1_nonneg _ _ _) (norm1_nonneg _ _ _), norm1_eq_zero _ _ _ hc,
      norm1_eq_zero _ _ _ hc, grad, cst]
  · rw [add_eq_zero_iff_of_nonneg (norm2_nonneg _ _ _) (norm2_nonneg _ _ _), norm2_eq_zero,
      norm2_eq_zero, grad, cst]

/-- **C192** Brightness and contrast of either float image do not matter. -/
theorem quantify_contrast (n rows cols : Nat) (img rec img' rec' : List ℝ)
    (hi : SameUpToContrast img' img) (hr : SameUpToContrast rec' rec) :
    quantify true true n rows cols img' rec' = quantify true true n rows cols img rec := by
  obtain ⟨a, b, ha, rfl⟩ := hi
  obtain ⟨a', b', ha', rfl⟩ := hr
  unfold quantify
  rw [normalize_affine img a b ha, normalize_affine rec a' b' ha']

/-- **C192** Exchanging the two images gives the same numbers. -/
theorem quantify_symmetric (fi fr : Bool) (n rows cols : Nat) (img rec : List ℝ)
    (hl : img.length = rec.length) :
    quantify fi fr n rows cols img rec = quantify fr fi n rows cols rec img := by
  unfold quantify
  dsimp only
  rw [normalize_length, normalize_length, hl]
  split
  · rfl
  · split
    · rfl
    · have s : ∀ x y : Nat → Nat → ℝ, (fun r c => x r c - y r c) = fun r c => -(y r c - x r c) := by
        intro x y; funext r c; ring
      rw [s, norm1_neg, norm2_neg, s (sobel0 _ _ _), norm1_neg, norm2_neg, s (sobel1 _ _ _), norm1_neg,
        norm2_neg]

/-- **C192** (refuted part) The numbers are not the L1 and L2 norms of the difference: for the image
`1 0 / 0 1` and an empty reconstruction the normalised difference is `2 0 / 0 2`, with L1 norm 4 and L2
norm the root of 8; both reported numbers are 2. -/
theorem quantify_not_entrywise :
    ∃ rep, quantify true true 1 2 2 [1, 0, 0, 1] [0, 0, 0, 0] = .ok rep ∧
      (let d := fun r c => reshape2 2 (normalize true [1, 0, 0, 1]) r c
        - reshape2 2 (normalize true [0, 0, 0, 0]) r c
      entries1 2 2 d = 4 ∧ entries2 2 2 d = Real.sqrt 8) ∧ rep.l1pix = 2 ∧ rep.l2pix = 2 := by
  have ra : Range ([1, 0, 0, 1] : List ℝ) 0 1 := by
    refine ⟨by simp, by simp, fun x hx => ?_⟩
    simp at hx
    rcases hx with rfl | rfl | rfl <;> norm_num
  have rb : Range ([0, 0, 0, 0] : List ℝ) 0 0 := by
    refine ⟨by simp, by simp, fun x hx => ?_⟩
    simp at hx
    rw [hx]; norm_num
  have na : normalize true ([1, 0, 0, 1] : List ℝ) = [1, -1, -1, 1] := by
    rw [normalize_value ra (by norm_num)]
    norm_num
  have nb : normalize true ([0, 0, 0, 0] : List ℝ) = [-1, -1, -1, -1] := by
    rw [normalize_const true rb]
    rfl
  have hd : ∀ r < 2, ∀ c < 2, reshape2 2 [1, -1, -1, 1] r c - reshape2 2 [-1, -1, -1, -1] r c
      = if r = c then 2 else 0 := by
    intro r hr c hc
    interval_cases r <;> interval_cases c <;> norm_num [reshape2]
  refine ⟨_, by unfold quantify; dsimp only; rw [normalize_length, if_neg (by omega), if_neg (by simp)],
    ⟨?_, ?_⟩, ?_, ?_⟩
  · rw [na, nb]
    unfold entries1
    simp only [sum_range_succ, sum_range_zero]
    rw [hd 0 (by omega) 0 (by omega), hd 0 (by omega) 1 (by omega), hd 1 (by omega) 0 (by omega),
      hd 1 (by omega) 1 (by omega)]
    norm_num
  · rw [na, nb]
    unfold entries2
    simp only [sum_range_succ, sum_range_zero]
    rw [hd 0 (by omega) 0 (by omega), hd 0 (by omega) 1 (by omega), hd 1 (by omega) 0 (by omega),
      hd 1 (by omega) 1 (by omega)]
    norm_num
  · dsimp only
    rw [na, nb]
    unfold norm1
    simp only [List.range_succ, List.range_zero, List.nil_append, List.cons_append, List.map_cons,
      List.map_nil, List.foldr_cons, List.foldr_nil, Nat.mul_one, sum_range_succ, sum_range_zero]
    rw [hd 0 (by omega) 0 (by omega), hd 0 (by omega) 1 (by omega), hd 1 (by omega) 0 (by omega),
      hd 1 (by omega) 1 (by omega)]
    norm_num
  · dsimp only
    rw [na, nb]
    unfold norm2
    have : (Matrix.of fun (i : Fin (2 * 1)) (j : Fin 2) =>
        reshape2 2 [1, -1, -1, 1] i j - reshape2 2 [-1, -1, -1, -1] i j)
        = (Matrix.diagonal fun _ : Fin 2 => (2 : ℝ)) := by
      ext i j
      rw [Matrix.of_apply, hd i i.2 j j.2, Matrix.diagonal_apply]
      simp only [Fin.ext_iff]
    rw [this, Matrix.l2_opNorm_diagonal]
    rw [pi_norm_const]
    norm_num

/-- **C192** (refuted part) Integer images that are not constant are not normalised (C124): such an
image and the same image as floats are reported as equal only if its values already range from -1
to 1. -/
theorem quantify_int_partial (n rows cols : Nat) (img : List ℝ) (m M : ℝ) (hm : Range img m M)
    (hlt : m < M) (hc : 0 < cols) (rep : Report)
    (h : quantify false true n rows cols img img = .ok rep) :
    rep.l1pix = 0 ↔ m = -1 ∧ M = 1 := by
  obtain ⟨hn, hi, e⟩ := quantify_ok _ _ _ _ _ _ _ _ h
  rw [e]
  dsimp only
  rw [norm1_eq_zero _ _ _ hc]
  simp only [sub_eq_zero]
  rw [reshape_eq cols (rows * n) _ _ hc (by rw [normalize_length]; exact hi)
      (by rw [normalize_length]; exact hi), normalize_int_partial hm hlt]
  constructor
  · intro h1
    have r := normalize_isRange hm hlt
    rw [← h1] at r
    exact ⟨le_antisymm (hm.2.2 _ r.1).1 (r.2.2 _ hm.1).1,
      le_antisymm (r.2.2 _ hm.2.1).2 (hm.2.2 _ r.2.1).2⟩
  · rintro ⟨rfl, rfl⟩
    rw [normalize_value hm hlt]
    conv_lhs => rw [← List.map_id img]
    refine List.map_congr_left fun x _ => ?_
    simp only [id]
    ring

/-- A stack of two images of 1 × 2 pixels meets the hypotheses of `quantify_zero_iff`, and so does an
integer image of those of `quantify_int_partial`. -/
example : (∃ rep, quantify true true 2 1 2 [1, 2, 3, 4] [5, 0, 1, 2] = .ok rep) ∧
    (∃ rep, quantify false true 1 1 2 [0, 7] [0, 7] = .ok rep) ∧ Range ([0, 7] : List ℝ) 0 7 := by
  refine ⟨?_, ?_, by simp, by simp, fun x hx => ?_⟩
  · refine ⟨_, by unfold quantify; dsimp only; rw [normalize_length, if_neg (by omega), if_neg (by simp)]⟩
  · refine ⟨_, by unfold quantify; dsimp only; rw [normalize_length, if_neg (by omega), if_neg (by simp)]⟩
  · simp at hx
    rcases hx with rfl | rfl <;> norm_num

end Tomopy.Bench
