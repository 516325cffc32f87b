import Verif.Bench.Model
import Verif.Files.Props
import Mathlib.Tactic.Linarith
import Mathlib.Tactic.FieldSimp
import Mathlib.Tactic.Ring
import Mathlib.Algebra.Order.Field.Rat

/-! C124-C126: image helpers of benchmark.py. -/
set_option linter.unusedSectionVars false

namespace Tomopy.Bench
open Tomopy.Files

/-! ### normalize -/

section Norm
variable {K : Type} [Field K] [LinearOrder K] [IsStrictOrderedRing K]

/-- Specification: `m` is the least and `M` the largest value. -/
def Range (l : List K) (m M : K) : Prop := m ∈ l ∧ M ∈ l ∧ ∀ x ∈ l, m ≤ x ∧ x ≤ M

theorem exists_range (l : List K) (h : l ≠ []) :
    ∃ m M, l.min? = some m ∧ l.max? = some M ∧ Range l m M := by
  cases hm : l.min? with
  | none => exact absurd (List.min?_eq_none_iff.1 hm) h
  | some m =>
    cases hM : l.max? with
    | none => exact absurd (List.max?_eq_none_iff.1 hM) h
    | some M =>
      obtain ⟨h1, h2⟩ := List.min?_eq_some_iff.1 hm
      obtain ⟨h3, h4⟩ := List.max?_eq_some_iff.1 hM
      exact ⟨m, M, rfl, rfl, h1, h3, fun x hx => ⟨h2 x hx, h4 x hx⟩⟩

theorem range_max_sub {l : List K} {m M : K} (h : Range l m M) :
    (l.map (· - m)).max? = some (M - m) := by
  refine List.max?_eq_some_iff.2 ⟨List.mem_map.2 ⟨M, h.2.1, rfl⟩, ?_⟩
  intro b hb
  obtain ⟨x, hx, rfl⟩ := List.mem_map.1 hb
  exact sub_le_sub_right (h.2.2 x hx).2 _

theorem range_min {l : List K} {m M : K} (h : Range l m M) : l.min? = some m :=
  List.min?_eq_some_iff.2 ⟨h.1, fun x hx => (h.2.2 x hx).1⟩

/-- **C124** A float array with at least two different values: minimum and maximum become -1 and 1,
the rest is mapped linearly. -/
theorem normalize_value {l : List K} {m M : K} (h : Range l m M) (hlt : m < M) :
    normalize true l = l.map fun x => 2 * (x - m) / (M - m) - 1 := by
  have hp : 0 < M - m := sub_pos.2 hlt
  unfold normalize
  simp only [range_min h, range_max_sub h, if_pos hp, if_true, List.map_map]
  refine List.map_congr_left fun x _ => ?_
  simp only [Function.comp]
  field_simp

/-- **C124** A constant array, of floats or integers, becomes -1 everywhere. -/
theorem normalize_const (f : Bool) {l : List K} {m : K} (h : Range l m m) :
    normalize f l = l.map fun _ => -1 := by
  unfold normalize
  simp only [range_min h, range_max_sub h, sub_self, lt_irrefl, if_false, List.map_map]
  refine List.map_congr_left fun x hx => ?_
  have := h.2.2 x hx
  simp only [Function.comp, le_antisymm this.2 this.1, sub_self, zero_sub]

/-- **C124** All values of a float array are in `[-1, 1]` afterwards, and -1 occurs; the shape is
kept. -/
theorem normalize_range (l : List K) (h : l ≠ []) :
    (normalize true l).length = l.length ∧ -1 ∈ normalize true l ∧
      ∀ y ∈ normalize true l, -1 ≤ y ∧ y ≤ 1 := by
  obtain ⟨m, M, _, _, hr⟩ := exists_range l h
  rcases (hr.2.2 m hr.1).2.lt_or_eq with hlt | rfl
  · rw [normalize_value hr hlt]
    have hp : 0 < M - m := sub_pos.2 hlt
    refine ⟨by simp, List.mem_map.2 ⟨m, hr.1, by simp⟩, ?_⟩
    intro y hy
    obtain ⟨x, hx, rfl⟩ := List.mem_map.1 hy
    obtain ⟨h1, h2⟩ := hr.2.2 x hx
    have a : 0 ≤ 2 * (x - m) / (M - m) := by
      have : 0 ≤ x - m := sub_nonneg.2 h1
      positivity
    have b : 2 * (x - m) / (M - m) ≤ 2 := by
      rw [div_le_iff₀ hp]; linarith
    constructor <;> linarith
  · rw [normalize_const true hr]
    refine ⟨by simp, List.mem_map.2 ⟨m, hr.1, rfl⟩, ?_⟩
    intro y hy
    obtain ⟨x, _, rfl⟩ := List.mem_map.1 hy
    constructor <;> linarith [zero_lt_one (α := K)]

/-- The range of the normalised array. -/
theorem normalize_isRange {l : List K} {m M : K} (h : Range l m M) (hlt : m < M) :
    Range (normalize true l) (-1) 1 := by
  have hp : M - m ≠ 0 := (sub_pos.2 hlt).ne'
  refine ⟨?_, ?_, ?_⟩
  · rw [normalize_value h hlt]
    exact List.mem_map.2 ⟨m, h.1, by simp⟩
  · rw [normalize_value h hlt]
    refine List.mem_map.2 ⟨M, h.2.1, ?_⟩
    field_simp
    ring
  · exact (normalize_range l (List.ne_nil_of_mem h.1)).2.2

/-- **C124** Normalising twice is normalising once. -/
theorem normalize_idem (l : List K) : normalize true (normalize true l) = normalize true l := by
  rcases eq_or_ne l [] with rfl | h
  · rfl
  obtain ⟨m, M, _, _, hr⟩ := exists_range l h
  rcases (hr.2.2 m hr.1).2.lt_or_eq with hlt | rfl
  · rw [normalize_value (normalize_isRange hr hlt) (by linarith [zero_lt_one (α := K)])]
    conv_rhs => rw [← List.map_id (normalize true l)]
    refine List.map_congr_left fun x _ => ?_
    rw [id]
    ring
  · rw [normalize_const true hr]
    have hr' : Range (l.map fun _ => (-1 : K)) (-1) (-1) := by
      refine ⟨List.mem_map.2 ⟨m, hr.1, rfl⟩, List.mem_map.2 ⟨m, hr.1, rfl⟩, ?_⟩
      intro x hx
      obtain ⟨_, _, rfl⟩ := List.mem_map.1 hx
      exact ⟨le_refl _, le_refl _⟩
    rw [normalize_const true hr', List.map_map]
    rfl

/-- **C124** Scaling by a positive factor and adding a constant do not change the result: only the
pattern is compared. -/
theorem normalize_affine (l : List K) (a b : K) (ha : 0 < a) :
    normalize true (l.map fun x => a * x + b) = normalize true l := by
  rcases eq_or_ne l [] with rfl | h
  · rfl
  obtain ⟨m, M, _, _, hr⟩ := exists_range l h
  have hr' : Range (l.map fun x => a * x + b) (a * m + b) (a * M + b) := by
    refine ⟨List.mem_map.2 ⟨m, hr.1, rfl⟩, List.mem_map.2 ⟨M, hr.2.1, rfl⟩, ?_⟩
    intro x hx
    obtain ⟨y, hy, rfl⟩ := List.mem_map.1 hx
    obtain ⟨h1, h2⟩ := hr.2.2 y hy
    have := mul_le_mul_of_nonneg_left h1 ha.le
    have := mul_le_mul_of_nonneg_left h2 ha.le
    constructor <;> linarith
  rcases (hr.2.2 m hr.1).2.lt_or_eq with hlt | rfl
  · have hp : M - m ≠ 0 := (sub_pos.2 hlt).ne'
    have ha' := ha.ne'
    rw [normalize_value hr hlt, normalize_value hr' (by
      have := mul_lt_mul_of_pos_left hlt ha
      linarith), List.map_map]
    refine List.map_congr_left fun x _ => ?_
    simp only [Function.comp]
    have e : a * M + b - (a * m + b) = a * (M - m) := by ring
    rw [e]
    field_simp
    ring
  · rw [normalize_const true hr, normalize_const true hr', List.map_map]
    rfl

/-- **C124 (refutation)** Integer images with two different values come back as they are. -/
theorem normalize_int_partial {l : List K} {m M : K} (h : Range l m M) (hlt : m < M) :
    normalize false l = l := by
  have hp : 0 < M - m := sub_pos.2 hlt
  unfold normalize
  simp only [range_min h, range_max_sub h, if_pos hp]
  rfl

example : normalize true [(3 : ℚ), 1, 5, 2] = [0, -1, 1, -1 / 2] ∧
    normalize false [(3 : ℚ), 1, 5, 2] = [3, 1, 5, 2] ∧ normalize true [(4 : ℚ), 4] = [-1, -1] := by
  decide +kernel

example : Range [(3 : ℚ), 1, 5, 2] 1 5 := by
  refine ⟨by decide, by decide, ?_⟩
  decide +kernel

end Norm

/-! ### trim_border, fill_border -/

variable {K : Type}

theorem trim_eq (rec : Stack K) (nimages drow dcol : Nat) (h0 : rec.n ≠ 0) (hr : drow ≤ rec.rows)
    (hc : dcol ≤ rec.cols) (hn : nimages ≤ rec.n) :
    trimBorder rec nimages drow dcol = .ok ⟨nimages, rec.rows - drow, rec.cols - dcol,
      fun i x y => rec.val i (drow / 2 + x) (dcol / 2 + y)⟩ := by
  unfold trimBorder
  rw [if_neg h0]
  simp only
  rw [if_neg]
  unfold sliceLen
  omega

theorem fill_eq (rec : Stack K) (nimages drow dcol : Nat) (h0 : rec.n ≠ 0)
    (hn : nimages ≤ rec.n) :
    fillBorder rec nimages drow dcol = .ok ⟨nimages, rec.rows + drow, rec.cols + dcol,
      fun i x y => if drow / 2 ≤ x ∧ x < drow / 2 + rec.rows ∧ dcol / 2 ≤ y ∧
        y < dcol / 2 + rec.cols then rec.val i (x - drow / 2) (y - dcol / 2) else none⟩ := by
  unfold fillBorder
  rw [if_neg h0]
  simp only
  rw [if_neg]
  unfold sliceLen
  omega

/-- **C125** Trimming keeps, of every image, the window that starts at half of the rows and columns
removed; all pixels read are inside the image. -/
theorem trim_spec (rec : Stack K) (nimages drow dcol : Nat) (h0 : rec.n ≠ 0) (hr : drow ≤ rec.rows)
    (hc : dcol ≤ rec.cols) (hn : nimages ≤ rec.n) :
    ∃ out, trimBorder rec nimages drow dcol = .ok out ∧ out.n = nimages ∧
      out.rows + drow = rec.rows ∧ out.cols + dcol = rec.cols ∧
      ∀ i < out.n, ∀ x < out.rows, ∀ y < out.cols,
        out.val i x y = rec.val i (drow / 2 + x) (dcol / 2 + y) ∧ i < rec.n ∧
        drow / 2 + x < rec.rows ∧ dcol / 2 + y < rec.cols := by
  refine ⟨_, trim_eq rec nimages drow dcol h0 hr hc hn, rfl, ?_, ?_, ?_⟩
  · simp only; omega
  · simp only; omega
  · intro i hi x hx y hy
    change i < nimages at hi
    change x < rec.rows - drow at hx
    change y < rec.cols - dcol at hy
    refine ⟨rfl, ?_, ?_, ?_⟩ <;> omega

/-- **C125** Trimming takes back filling: size and every pixel of the first `nimages` images. -/
theorem trim_fill (rec : Stack K) (nimages drow dcol : Nat) (h0 : rec.n ≠ 0) (h1 : nimages ≠ 0)
    (hn : nimages ≤ rec.n) :
    ∃ mid out, fillBorder rec nimages drow dcol = .ok mid ∧ mid.rows = rec.rows + drow ∧
      mid.cols = rec.cols + dcol ∧ trimBorder mid nimages drow dcol = .ok out ∧
      out.n = nimages ∧ out.rows = rec.rows ∧ out.cols = rec.cols ∧
      ∀ i < nimages, ∀ x < rec.rows, ∀ y < rec.cols, out.val i x y = rec.val i x y := by
  refine ⟨_, _, fill_eq rec nimages drow dcol h0 hn, rfl, rfl, trim_eq _ nimages drow dcol h1
    (Nat.le_add_left _ _) (Nat.le_add_left _ _) (le_refl _), rfl, by simp, by simp, ?_⟩
  intro i _ x hx y hy
  simp only
  rw [if_pos (by omega)]
  congr 1 <;> omega

/-- **C125 (refutation)** The border that `fill_border` adds is uninitialised: a pixel is defined
exactly if it is inside the copied window. -/
theorem fill_undefined_partial (rec : Stack K) (nimages drow dcol : Nat) (h0 : rec.n ≠ 0)
    (hn : nimages ≤ rec.n)
    (hv : ∀ i < rec.n, ∀ x < rec.rows, ∀ y < rec.cols, rec.val i x y ≠ none) :
    ∃ out, fillBorder rec nimages drow dcol = .ok out ∧
      ∀ i < nimages, ∀ x < rec.rows + drow, ∀ y < rec.cols + dcol, (out.val i x y ≠ none ↔
        drow / 2 ≤ x ∧ x < drow / 2 + rec.rows ∧ dcol / 2 ≤ y ∧ y < dcol / 2 + rec.cols) := by
  refine ⟨_, fill_eq rec nimages drow dcol h0 hn, ?_⟩
  intro i hi x hx y hy
  simp only
  split
  · rename_i h
    exact ⟨fun _ => h, fun _ => hv i (by omega) _ (by omega) _ (by omega)⟩
  · rename_i h
    exact ⟨fun e => absurd rfl e, fun e => absurd e h⟩

/-- **C125 (refutation)** A border larger than the image or more images than there are raise
nothing: the input comes back with its own size. -/
theorem trim_silent (rec : Stack K) (nimages drow dcol : Nat) (h0 : rec.n ≠ 0)
    (h : rec.rows < drow ∨ rec.cols < dcol ∨ rec.n < nimages) :
    trimBorder rec nimages drow dcol = .ok rec := by
  unfold trimBorder
  rw [if_neg h0]
  simp only
  rw [if_pos]
  rcases h with h | h | h
  · exact Or.inl h
  · exact Or.inr (Or.inl h)
  · exact Or.inr (Or.inr (Or.inl h))

/-- One image of 2 × 2 pixels with a border of one row and three columns. -/
example : ∃ out, fillBorder (⟨1, 2, 2, fun _ x y => some (x + 10 * y)⟩ : Stack Nat) 1 1 3 = .ok out ∧
    out.rows = 3 ∧ out.cols = 5 ∧ out.val 0 1 2 = some 11 ∧ out.val 0 0 0 = none :=
  ⟨_, fill_eq _ 1 1 3 (by decide) (by decide), rfl, rfl, rfl, rfl⟩

/-! ### output_images -/

/-- Specification: the images of file number `j`. -/
def group (n k j : Nat) : List Nat := List.range' (j * k) (min k (n - j * k))

/-- Specification: name of the file with images `l`: the numbers separated by `_`. -/
def fileName (fpath fmt : Name) (l : List Nat) : Name :=
  fpath ++ List.intercalate ['_'] (l.map decNat) ++ '.' :: fmt

theorem intercalate_snoc (l : List Name) (x : Name) :
    List.intercalate ['_'] (l ++ [x]) = (l.flatMap fun y => y ++ ['_']) ++ x := by
  induction l with
  | nil => simp [List.intercalate]
  | cons a t ih =>
    cases t with
    | nil => simp [List.intercalate]
    | cons b u =>
      have : List.intercalate ['_'] (a :: b :: (u ++ [x]))
          = a ++ ['_'] ++ List.intercalate ['_'] (b :: (u ++ [x])) := by
        simp [List.intercalate]
      simp only [List.cons_append, List.flatMap_cons] at ih ⊢
      rw [this, ih]
      simp

/-- The state of the loop before image `m < n`. -/
def before (fpath fmt : Name) (n k m : Nat) : OutState :=
  ⟨m, if m % k = 0 then none else some (List.range' (m / k * k) (m % k)),
    fpath ++ ((List.range' (m / k * k) (m % k)).map decNat).flatMap (fun y => y ++ ['_']),
    (List.range (m / k)).map fun j => (fileName fpath fmt (group n k j), group n k j)⟩

theorem fileName_snoc (fpath fmt : Name) (l : List Nat) (i : Nat) :
    fileName fpath fmt (l ++ [i])
      = (fpath ++ (l.map decNat).flatMap (fun y => y ++ ['_'])) ++ decNat i ++ '.' :: fmt := by
  unfold fileName
  rw [List.map_append, List.map_cons, List.map_nil, intercalate_snoc]
  simp

theorem range'_snoc (a b : Nat) : List.range' a (b + 1) = List.range' a b ++ [a + b] := by
  rw [List.range'_concat, Nat.one_mul]

/-- The list of images collected so far, with image `m`. -/
theorem collected (fpath fmt : Name) (n k m : Nat) :
    append (before fpath fmt n k m).recI m = List.range' (m / k * k) (m % k + 1) := by
  have hm := Nat.div_add_mod m k
  rw [range'_snoc]
  have e : m / k * k + m % k = m := by rw [Nat.mul_comm]; exact hm
  unfold before
  simp only
  split
  · rename_i h0
    rw [h0] at e ⊢
    simp only [Nat.add_zero] at e
    simp [e, append]
  · rw [e]
    rfl

theorem step_continue (fpath fmt : Name) (n k m : Nat) (hk : 0 < k) (hm : m + 1 < n) :
    outStep fpath fmt n k (before fpath fmt n k m) m = before fpath fmt n k (m + 1) := by
  have hdm := Nat.div_add_mod m k
  have hlt := Nat.mod_lt m hk
  unfold outStep
  simp only [collected]
  simp only [show (before fpath fmt n k m).nitr = m from rfl]
  by_cases h : (m + 1) % k = 0
  · rw [if_pos (Or.inl h)]
    have e1 : m % k + 1 = k := by
      by_contra hne
      have : (m + 1) % k = m % k + 1 := by
        rw [← Nat.mod_add_mod, Nat.mod_eq_of_lt (by omega)]
      omega
    have e2 : (m + 1) / k = m / k + 1 := by
      rw [show m + 1 = (m / k + 1) * k by
        calc m + 1 = k * (m / k) + m % k + 1 := by omega
          _ = k * (m / k) + k := by omega
          _ = (m / k + 1) * k := by ring]
      exact Nat.mul_div_cancel _ hk
    have hg : group n k (m / k) = List.range' (m / k * k) (m % k + 1) := by
      unfold group
      congr 1
      have : m / k * k + k ≤ n := by
        have : m / k * k = k * (m / k) := Nat.mul_comm _ _
        omega
      omega
    unfold before
    simp only [h, if_true, e2, List.range'_zero, List.map_nil,
      List.flatMap_nil, List.append_nil]
    rw [List.range_succ, List.map_append, List.map_cons, List.map_nil, hg]
    congr 4
    rw [range'_snoc, fileName_snoc, show m / k * k + m % k = m by
      rw [Nat.mul_comm]; exact hdm]
  · rw [if_neg (by omega)]
    have e1 : (m + 1) % k = m % k + 1 := by
      by_cases hc : m % k + 1 < k
      · rw [← Nat.mod_add_mod, Nat.mod_eq_of_lt hc]
      · exfalso
        apply h
        have : m % k + 1 = k := by omega
        rw [← Nat.mod_add_mod, this, Nat.mod_self]
    have e2 : (m + 1) / k = m / k := by
      have := Nat.div_add_mod (m + 1) k
      rw [e1] at this
      have h2 : k * ((m + 1) / k) = k * (m / k) := by omega
      exact Nat.eq_of_mul_eq_mul_left hk h2
    unfold before
    rw [e1, e2, if_neg (Nat.succ_ne_zero _), range'_snoc, show m / k * k + m % k = m by
      rw [Nat.mul_comm]; exact hdm]
    simp

/-- Number of files. -/
def nfiles (n k : Nat) : Nat := (n + k - 1) / k

theorem outputImages_eq (fpath fmt : Name) (n ncol : Nat) (hn : 1 ≤ n) (hk : 1 ≤ ncol) :
    outputImages fpath fmt n ncol = .ok ((List.range (nfiles n (min ncol n))).map fun j =>
      (fileName fpath fmt (group n (min ncol n) j), group n (min ncol n) j)) := by
  have hmin : (if n < ncol then n else ncol) = min ncol n := by split <;> omega
  unfold outputImages
  simp only [hmin]
  rw [if_neg (by omega), if_neg (by omega)]
  generalize hkk : min ncol n = k
  have hk1 : 0 < k := by omega
  have hfold : ∀ m, m < n → (List.range m).foldl (outStep fpath fmt n k) ⟨0, none, fpath, []⟩
      = before fpath fmt n k m := by
    intro m
    induction m with
    | zero => intro _; simp [before]
    | succ m ih =>
      intro h
      rw [List.range_succ, List.foldl_append, ih (by omega), List.foldl_cons, List.foldl_nil,
        step_continue fpath fmt n k m hk1 h]
  obtain ⟨m, rfl⟩ : ∃ m, n = m + 1 := ⟨_, (Nat.sub_add_cancel hn).symm⟩
  rw [List.range_succ, List.foldl_append, hfold m (by omega), List.foldl_cons, List.foldl_nil]
  congr 1
  unfold outStep
  simp only [collected]
  rw [if_pos (Or.inr trivial)]
  have hdm := Nat.div_add_mod m k
  have hlt := Nat.mod_lt m hk1
  have hnf : nfiles (m + 1) k = m / k + 1 := by
    unfold nfiles
    rw [show m + 1 + k - 1 = m + k by omega, Nat.add_div_right _ hk1]
  have hg : group (m + 1) k (m / k) = List.range' (m / k * k) (m % k + 1) := by
    unfold group
    congr 1
    have : m / k * k = k * (m / k) := Nat.mul_comm _ _
    omega
  rw [hnf, List.range_succ, List.map_append, List.map_cons, List.map_nil, hg]
  unfold before
  simp only
  congr 3
  rw [range'_snoc, fileName_snoc, show m / k * k + m % k = m by rw [Nat.mul_comm]; exact hdm]

theorem groups_flatten (n k : Nat) (hk : 0 < k) (c : Nat) :
    ((List.range c).flatMap (group n k)) = List.range (min (c * k) n) := by
  induction c with
  | zero => simp
  | succ c ih =>
    rw [List.range_succ, List.flatMap_append, ih, List.flatMap_cons, List.flatMap_nil,
      List.append_nil]
    unfold group
    have hs : (c + 1) * k = c * k + k := by ring
    rw [hs, List.range_eq_range', List.range_eq_range']
    rcases Nat.lt_or_ge (c * k) n with h | h
    · rw [show min (c * k) n = c * k by omega]
      have := List.range'_append (s := 0) (m := c * k) (n := min k (n - c * k)) (step := 1)
      simp only [Nat.one_mul, Nat.zero_add] at this
      rw [this]
      congr 1
      omega
    · rw [show min k (n - c * k) = 0 by omega, show min (c * k) n = n by omega,
        show min (c * k + k) n = n by omega]
      simp

/-- **C126** With at least one image and one column every image goes into exactly one file, in
order, `ncol` images per file (the last file the rest), and the files are those returned. -/
theorem output_covers (fpath fmt : Name) (n ncol : Nat) (hn : 1 ≤ n) (hk : 1 ≤ ncol) :
    ∃ files, outputImages fpath fmt n ncol = .ok files ∧
      files.flatMap (·.2) = List.range n ∧
      (∀ f ∈ files, f.2 ≠ [] ∧ f.2.length ≤ ncol ∧ f.1 = fileName fpath fmt f.2) ∧
      ∀ f ∈ files.dropLast, f.2.length = min ncol n := by
  refine ⟨_, outputImages_eq fpath fmt n ncol hn hk, ?_, ?_, ?_⟩
  · rw [List.flatMap_map]
    simp only
    rw [show (fun a => group n (min ncol n) a) = group n (min ncol n) from rfl,
      groups_flatten n _ (by omega)]
    congr 1
    generalize hkk : min ncol n = k
    have hk1 : 0 < k := by omega
    have := Nat.lt_div_mul_add (a := n + k - 1) hk1
    unfold nfiles
    omega
  · intro f hf
    obtain ⟨j, hj, rfl⟩ := List.mem_map.1 hf
    have hj' := List.mem_range.1 hj
    generalize hkk : min ncol n = k at *
    have hk1 : 0 < k := by omega
    have hjk : j * k < n := by
      have h1 : (j + 1) * k ≤ (n + k - 1) / k * k := Nat.mul_le_mul_right _ hj'
      have h2 := Nat.div_mul_le_self (n + k - 1) k
      have h3 : (j + 1) * k = j * k + k := by ring
      omega
    refine ⟨?_, ?_, rfl⟩
    · simp only [group, ne_eq, List.range'_eq_nil_iff]
      omega
    · simp only [group, List.length_range']
      omega
  · intro f hf
    generalize hkk : min ncol n = k at *
    have hk1 : 0 < k := by omega
    rw [← List.map_dropLast] at hf
    obtain ⟨j, hj, rfl⟩ := List.mem_map.1 hf
    have hj' : j + 1 < nfiles n k := by
      have e : (List.range (nfiles n k)).dropLast = List.range (nfiles n k - 1) := by
        cases nfiles n k with
        | zero => rfl
        | succ c => rw [List.range_succ, List.dropLast_concat]; rfl
      rw [e] at hj
      have := List.mem_range.1 hj
      omega
    have hjk : j * k + k ≤ n := by
      have h1 : (j + 1 + 1) * k ≤ (n + k - 1) / k * k := Nat.mul_le_mul_right _ hj'
      have h2 := Nat.div_mul_le_self (n + k - 1) k
      have h3 : (j + 1 + 1) * k = j * k + k + k := by ring
      omega
    simp only [group, List.length_range']
    omega

theorem takeWhile_name (fpath fmt : Name) (a : Nat) (t : List Nat) :
    ((fileName fpath fmt (a :: t)).drop fpath.length).takeWhile (·.isDigit) = decNat a := by
  have h : ∃ c r, (fileName fpath fmt (a :: t)).drop fpath.length = decNat a ++ c :: r ∧
      c.isDigit = false := by
    unfold fileName
    rw [List.append_assoc, List.drop_left]
    cases t with
    | nil => exact ⟨'.', fmt, by simp [List.intercalate], by decide⟩
    | cons b u =>
      refine ⟨'_', List.intercalate ['_'] (decNat b :: u.map decNat) ++ '.' :: fmt, ?_, by decide⟩
      simp [List.intercalate]
  obtain ⟨c, r, e, hc⟩ := h
  rw [e, List.takeWhile_append_of_pos fun x hx => decNat_digit a x hx, List.takeWhile_cons,
    if_neg (by simp [hc]), List.append_nil]

/-- **C126** No file is overwritten: the names are pairwise different. -/
theorem output_names_distinct (fpath fmt : Name) (n ncol : Nat) (files : List (Name × List Nat))
    (h : outputImages fpath fmt n ncol = .ok files) : (files.map (·.1)).Nodup := by
  have hn : 1 ≤ n := by
    by_contra hc
    unfold outputImages at h
    rw [if_pos (by omega : n = 0)] at h
    cases h
  have hk : 1 ≤ ncol := by
    by_contra hc
    unfold outputImages at h
    rw [if_neg (by omega : ¬ n = 0), show ncol = 0 by omega, if_neg (by omega : ¬ n < 0),
      if_pos rfl] at h
    cases h
  rw [outputImages_eq fpath fmt n ncol hn hk, Except.ok.injEq] at h
  subst h
  rw [List.map_map]
  refine List.Nodup.map_on ?_ List.nodup_range
  intro i hi j hj e
  simp only [Function.comp] at e
  have key : ∀ j ∈ List.range (nfiles n (min ncol n)),
      ∃ t, group n (min ncol n) j = j * min ncol n :: t := by
    intro j hj
    have hj' := List.mem_range.1 hj
    generalize hkk : min ncol n = k at *
    have hjk : j * k < n := by
      have h1 : (j + 1) * k ≤ (n + k - 1) / k * k := Nat.mul_le_mul_right _ hj'
      have h2 := Nat.div_mul_le_self (n + k - 1) k
      have h3 : (j + 1) * k = j * k + k := by ring
      omega
    unfold group
    obtain ⟨q, hq⟩ : ∃ q, min k (n - j * k) = q + 1 := ⟨min k (n - j * k) - 1, by omega⟩
    rw [hq, List.range'_succ]
    exact ⟨_, rfl⟩
  obtain ⟨ti, hti⟩ := key i hi
  obtain ⟨tj, htj⟩ := key j hj
  rw [hti, htj] at e
  have h1 := takeWhile_name fpath fmt (i * min ncol n) ti
  rw [e, takeWhile_name] at h1
  have h2 := decNat_inj _ _ h1
  exact (Nat.eq_of_mul_eq_mul_right (by omega) h2).symm

/-- **C126 (refutation)** The names are not the documented `{fpath}_{first}_{last+1}.{format}`; two
images in one file give `img0_1.png`. -/
theorem output_name_partial :
    (∃ files, outputImages "img".toList "png".toList 2 2 = .ok files ∧
      files.map (·.1) = ["img0_1.png".toList]) ∧
    "img0_1.png".toList ≠ "img_0_2.png".toList := by
  refine ⟨⟨_, rfl, ?_⟩, by decide⟩
  decide +kernel

/-- **C126** An empty stack raises IndexError, no columns ZeroDivisionError. -/
theorem output_errors (fpath fmt : Name) (n ncol : Nat) (e : PyErr) :
    outputImages fpath fmt n ncol = .error e ↔
      (n = 0 ∧ e = .index) ∨ (n ≠ 0 ∧ ncol = 0 ∧ e = .zeroDivision) := by
  rcases Nat.eq_zero_or_pos n with rfl | hn
  · simp [outputImages, eq_comm]
  · rcases Nat.eq_zero_or_pos ncol with rfl | hk
    · have : ¬ n = 0 := by omega
      simp [outputImages, this, eq_comm]
    · rw [outputImages_eq fpath fmt n ncol hn hk]
      constructor
      · intro h; cases h
      · rintro (h | h) <;> omega

example : ∃ files, outputImages "a".toList "b".toList 5 2 = .ok files ∧
    files.map (·.2) = [[0, 1], [2, 3], [4]] ∧
    files.map (·.1) = ["a0_1.b".toList, "a2_3.b".toList, "a4.b".toList] := by
  refine ⟨_, rfl, ?_, ?_⟩ <;> decide +kernel

end Tomopy.Bench
