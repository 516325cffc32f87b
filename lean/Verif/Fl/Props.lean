import Verif.Fl.Model
import Verif.Ray.Safety

/-!
# The `float` ray tracer stays inside its buffers and inside the image
-/

set_option linter.unusedSectionVars false

namespace Tomopy.Fl

open Tomopy.Ray (Caps capsRecon capsProject trimLoop sortIntersections cTrunc trimLoop_eq
  sortIntersections_perm countP_ends filterMap_length_le_countP cTrunc_floor)

/-! ## Grid lines and the margin -/

theorem gridF_eq {r i : Nat} (hr : r ≤ 2 ^ 22) (hi : i ≤ r) : gridF r i = -(r : ℚ) / 2 + i := by
  have h1 : fl (-(r : ℚ)) = -(r : ℚ) := by
    have := fl_int (m := -(r : ℤ)) (by rw [abs_neg, abs_of_nonneg (by positivity)]; omega)
    push_cast at this
    exact this
  have h2 : fl (i : ℚ) = i := by
    have := fl_int (m := (i : ℤ)) (by rw [abs_of_nonneg (by positivity)]; omega)
    push_cast at this
    exact this
  have h3 : fl (-(r : ℚ) * (1 / 2)) = -(r : ℚ) * (1 / 2) := by
    have := fl_half (m := -(r : ℤ)) (by rw [abs_neg, abs_of_nonneg (by positivity)]; omega)
    push_cast at this
    rw [show -(r : ℚ) * (1 / 2) = -(r : ℚ) / 2 by ring]
    exact this
  have h4 : fl (-(r : ℚ) * (1 / 2) + i) = -(r : ℚ) * (1 / 2) + i := by
    have := fl_half (m := 2 * (i : ℤ) - r) (by rw [abs_le]; constructor <;> omega)
    push_cast at this
    rw [show -(r : ℚ) * (1 / 2) + i = (2 * (i : ℚ) - r) / 2 by ring]
    exact this
  unfold gridF
  rw [h1, h2, h3, h4]
  ring

theorem c01_bounds : 99999 / 10000000 ≤ c01 ∧ c01 ≤ 1 / 100 := by
  have h : c01 = 10737418 / 2 ^ 30 := by decide +kernel
  rw [h]
  norm_num

/-- What the tests of `trim_coords` guarantee for an axis of at most `2¹⁵` pixels. -/
theorem insideF_bounds {r : Nat} {v : ℚ} (hr : r ≤ 2 ^ 15) (h : insideF r v = true) :
    -(r : ℚ) / 2 + 9 / 1000 ≤ v ∧ v ≤ (r : ℚ) / 2 - 9 / 1000 := by
  simp only [insideF, Bool.and_eq_true, decide_eq_true_eq] at h
  rw [gridF_eq (by omega) (Nat.zero_le r), gridF_eq (by omega) (le_refl r)] at h
  have hc := c01_bounds
  have hrq : (r : ℚ) ≤ 32768 := by exact_mod_cast hr
  have hr0 : (0 : ℚ) ≤ r := by positivity
  have e1 := abs_le.mp (fl_rel (-(r : ℚ) / 2 + (0 : ℕ) + c01))
  have e2 := abs_le.mp (fl_rel (-(r : ℚ) / 2 + r - c01))
  have b1 : |(-(r : ℚ) / 2 + (0 : ℕ) + c01)| ≤ 16385 := by
    rw [abs_le]; push_cast; constructor <;> linarith [hc.1, hc.2]
  have b2 : |(-(r : ℚ) / 2 + r - c01)| ≤ 16385 := by
    rw [abs_le]; constructor <;> linarith [hc.1, hc.2]
  have n1 : (1 : ℚ) / 2 ^ 150 ≤ 1 / 1000000 := by norm_num
  have m1 : |(-(r : ℚ) / 2 + (0 : ℕ) + c01)| / 2 ^ 24 ≤ 16385 / 2 ^ 24 := by gcongr
  have m2 : |(-(r : ℚ) / 2 + r - c01)| / 2 ^ 24 ≤ 16385 / 2 ^ 24 := by gcongr
  have n2 : (16385 : ℚ) / 2 ^ 24 ≤ 98 / 100000 := by norm_num
  push_cast at *
  constructor <;> linarith [e1.1, e2.2, h.1, h.2, hc.1, hc.2]

/-! ## The pixel of a segment -/

theorem fl_near {x B : ℚ} (h : |x| ≤ B) : |fl x - x| ≤ B / 2 ^ 24 + 1 / 2 ^ 150 := by
  refine le_trans (fl_rel x) ?_
  gcongr

/-- `floor` is what `_i1 - (_i1 > _x1)` computes, also in `float`. -/
theorem pixelIndexF_eq {r : Nat} {v0 v1 : ℚ} (h : |midF r v0 v1| < 2 ^ 23) :
    pixelIndexF r v0 v1 = ⌊midF r v0 v1⌋ := by
  unfold pixelIndexF
  generalize midF r v0 v1 = x at h
  rw [abs_lt] at h
  have hf := cTrunc_floor x
  have h1 : (-2 ^ 23 : ℤ) ≤ ⌊x⌋ := by rw [Int.le_floor]; push_cast; linarith [h.1]
  have h2 : ⌊x⌋ < 2 ^ 23 := by rw [Int.floor_lt]; push_cast; linarith [h.2]
  have h3 : |cTrunc x| ≤ 2 ^ 24 := by
    rw [abs_le]
    split at hf <;> constructor <;> omega
  rw [fl_int h3]
  have h4 : fl ((cTrunc x : ℚ) - (if (cTrunc x : ℚ) > x then 1 else 0)) = ((⌊x⌋ : ℤ) : ℚ) := by
    rw [← hf]
    have h5 : |cTrunc x - (if (cTrunc x : ℚ) > x then 1 else 0)| ≤ 2 ^ 24 := by
      rw [hf, abs_le]; constructor <;> omega
    have h6 := fl_int h5
    push_cast at h6 ⊢
    exact h6
  rw [h4]
  unfold cTrunc
  split <;> simp

/-- Two points of one axis whose smaller coordinate keeps the margin have a middle inside it. -/
theorem pixelIndexF_mem {r : Nat} {v0 v1 : ℚ} (hr : r ≤ 2 ^ 15)
    (h0 : -(r : ℚ) / 2 ≤ v0 ∧ v0 ≤ (r : ℚ) / 2) (h1 : -(r : ℚ) / 2 ≤ v1 ∧ v1 ≤ (r : ℚ) / 2)
    (hm : v0 ≤ (r : ℚ) / 2 - 9 / 1000 ∨ v1 ≤ (r : ℚ) / 2 - 9 / 1000) :
    0 ≤ pixelIndexF r v0 v1 ∧ pixelIndexF r v0 v1 < r := by
  have hrq : (r : ℚ) ≤ 32768 := by exact_mod_cast hr
  have hr0 : (0 : ℚ) ≤ r := by positivity
  have n1 : (1 : ℚ) / 2 ^ 150 ≤ 1 / 100000 := by norm_num
  have hra : |(r : ℤ)| ≤ 2 ^ 24 := by rw [abs_of_nonneg (by positivity)]; omega
  have hran : |-(r : ℤ)| ≤ 2 ^ 24 := by rw [abs_neg]; exact hra
  -- the sum
  have hs : v1 + v0 ≤ (r : ℚ) - 9 / 1000 := by rcases hm with h | h <;> linarith [h0.2, h1.2]
  have hs0 : -(r : ℚ) ≤ v1 + v0 := by linarith [h0.1, h1.1]
  have s1 : -(r : ℚ) ≤ fl (v1 + v0) := by
    have := int_le_fl (x := v1 + v0) (m := -(r : ℤ)) hran (by push_cast; exact hs0)
    push_cast at this
    exact this
  have s2 : fl (v1 + v0) ≤ (r : ℚ) - 7 / 1000 := by
    have e := abs_le.mp (fl_near (x := v1 + v0) (B := 32768) (by rw [abs_le]; constructor <;> linarith))
    have : (32768 : ℚ) / 2 ^ 24 ≤ 196 / 100000 := by norm_num
    linarith [e.2]
  -- the middle
  have t1 : -(r : ℚ) / 2 ≤ fl ((1 / 2) * fl (v1 + v0)) := by
    have h := fl_half hran
    push_cast at h
    rw [← h]
    exact fl_mono (by linarith)
  have t2 : fl ((1 / 2) * fl (v1 + v0)) ≤ (r : ℚ) / 2 - 25 / 10000 := by
    have e := abs_le.mp (fl_near (x := (1 / 2) * fl (v1 + v0)) (B := 16384)
      (by rw [abs_le]; constructor <;> linarith))
    have : (16384 : ℚ) / 2 ^ 24 ≤ 98 / 100000 := by norm_num
    linarith [e.2]
  have hh : fl ((1 / 2) * fl (r : ℚ)) = (r : ℚ) / 2 := by
    have h := fl_int hra
    have h' := fl_half hra
    push_cast at h h'
    rw [h, show (1 / 2 : ℚ) * r = r / 2 by ring, h']
  -- the shifted middle
  have u1 : 0 ≤ midF r v0 v1 := by
    unfold midF
    rw [hh]
    exact fl_nonneg (by linarith)
  have u2 : midF r v0 v1 < r := by
    unfold midF
    rw [hh]
    have e := abs_le.mp (fl_near (x := fl ((1 / 2) * fl (v1 + v0)) + (r : ℚ) / 2) (B := 32768)
      (by rw [abs_le]; constructor <;> linarith))
    have : (32768 : ℚ) / 2 ^ 24 ≤ 196 / 100000 := by norm_num
    linarith [e.2]
  rw [pixelIndexF_eq (by rw [abs_lt]; constructor <;> linarith)]
  constructor
  · rw [Int.le_floor]; exact_mod_cast u1
  · rw [Int.floor_lt]; exact_mod_cast u2

/-! ## The line of a ray -/

theorem le_of_rel {x y u e : ℚ} (hu : 0 ≤ u) (h : |x - y| ≤ u * |y| + e) (hu' : u ≤ 1 / 1000) :
    |y| ≤ (|x| + e) * (1 + 1002 / 1000 * u) := by
  have h1 : |y| ≤ |x| + (u * |y| + e) := by
    have := abs_sub_abs_le_abs_sub y x
    rw [abs_sub_comm] at this
    linarith
  have h2 : |y| * (1 - u) ≤ |x| + e := by linarith
  have h3 : 0 ≤ |y| := abs_nonneg y
  have h5 : (1 : ℚ) ≤ (1 - u) * (1 + 1002 / 1000 * u) := by nlinarith
  calc |y| ≤ |y| * ((1 - u) * (1 + 1002 / 1000 * u)) := by nlinarith
    _ = (|y| * (1 - u)) * (1 + 1002 / 1000 * u) := by ring
    _ ≤ _ := mul_le_mul_of_nonneg_right h2 (by linarith)

/-- A coordinate that is computed as `t * w + a` from rounded values and is at most `8192` differs
from the exact value on the line by less than `0.008`. -/
theorem line_err {k t w v c a d : ℚ} (ht : |t - k| ≤ |k| / 2 ^ 24 + 1 / 2 ^ 150)
    (htm : |t| < 2 ^ 128) (hd : |d| ≤ 40960) (hw : |w - d| ≤ |d| / 2 ^ 24 + 1 / 2 ^ 150)
    (hv : |v - t * w| ≤ |t * w| / 2 ^ 24 + 1 / 2 ^ 150)
    (hc : |c - (v + a)| ≤ |v + a| / 2 ^ 24 + 1 / 2 ^ 150) (ha : |a| ≤ 32768) (hcm : |c| ≤ 8192) :
    |c - (k * d + a)| ≤ 8 / 1000 := by
  have n1 : (1 : ℚ) / 2 ^ 150 ≤ 1 / 2 ^ 60 := by norm_num
  have n0 : (0 : ℚ) ≤ 1 / 2 ^ 150 := by norm_num
  generalize hη : (1 : ℚ) / 2 ^ 150 = η at *
  have hu : (0 : ℚ) ≤ 1 / 2 ^ 24 := by norm_num
  have hu' : (1 : ℚ) / 2 ^ 24 ≤ 1 / 1000 := by norm_num
  have r : ∀ x y : ℚ, |x - y| ≤ |y| / 2 ^ 24 + η →
      |y| ≤ (|x| + η) * (1 + 1002 / 1000 * (1 / 2 ^ 24)) := by
    intro x y h
    refine le_of_rel hu (le_trans h (le_of_eq ?_)) hu'
    ring
  have q1 := r _ _ hc
  have q2 : |v + a| ≤ 8193 := by norm_num at q1 n1 ⊢; linarith
  have q3 : |v| ≤ 40961 := by
    have := abs_sub_abs_le_abs_sub v (-a)
    rw [abs_neg, sub_neg_eq_add] at this
    linarith
  have q4 := r _ _ hv
  have q5 : |t * w| ≤ 40962 := by norm_num at q4 n1 ⊢; linarith
  -- the two rounding errors that are multiplied
  have e1 : |w - d| ≤ 10001 / 10000 / 2 ^ 24 * |w| + 2 * η := by
    have := r _ _ hw
    norm_num at this hw n1 ⊢
    linarith [abs_nonneg w]
  have e2 : |t - k| ≤ 10001 / 10000 / 2 ^ 24 * |t| + 2 * η := by
    have := r _ _ ht
    norm_num at this ht n1 ⊢
    linarith [abs_nonneg t]
  have hw' : |w| ≤ 40961 := by
    have h1 : |w| ≤ |w - d| + |d| := by
      have := abs_add_le (w - d) d
      rwa [sub_add_cancel] at this
    norm_num at hw n1 ⊢
    linarith
  have key : t * w - k * d = t * (w - d) + (t - k) * w - (t - k) * (w - d) := by ring
  have p1 : |t * (w - d)| ≤ 10001 / 10000 / 2 ^ 24 * |t * w| + 2 * η * |t| := by
    rw [abs_mul, abs_mul]
    nlinarith [abs_nonneg t]
  have p2 : |(t - k) * w| ≤ 10001 / 10000 / 2 ^ 24 * |t * w| + 2 * η * |w| := by
    rw [abs_mul, abs_mul]
    nlinarith [abs_nonneg w]
  have e1' : |w - d| ≤ 1 / 100 := by norm_num at hw n1 ⊢; linarith
  have p3 : |(t - k) * (w - d)| ≤ 10001 / 10000 / 2 ^ 24 * |t * (w - d)| + 2 * η * (1 / 100) := by
    rw [abs_mul, abs_mul]
    nlinarith [abs_nonneg (w - d)]
  have hηt : 2 * η * |t| ≤ 1 / 2 ^ 20 := by
    rw [← hη]
    norm_num at htm ⊢
    linarith
  have hηw : 2 * η * |w| ≤ 1 / 2 ^ 20 := by
    rw [← hη]
    norm_num at hw' ⊢
    linarith
  have p4 : |t * w - k * d| ≤ 49 / 10000 := by
    rw [key]
    have h1 := abs_sub (t * (w - d) + (t - k) * w) ((t - k) * (w - d))
    have h2 := abs_add_le (t * (w - d)) ((t - k) * w)
    rw [abs_mul (t - k)] at h1
    rw [abs_mul, abs_mul] at h2
    norm_num at p1 p2 p3 hηt hηw n1 q5 ⊢
    linarith
  have key2 : c - (k * d + a) = (c - (v + a)) + (v - t * w) + (t * w - k * d) := by ring
  rw [key2]
  have h1 := abs_add_le ((c - (v + a)) + (v - t * w)) (t * w - k * d)
  have h2 := abs_add_le (c - (v + a)) (v - t * w)
  norm_num at hc hv q2 q5 n1 p4 ⊢
  linarith

/-- The same for `mulAdd` in both modes. -/
theorem mulAdd_err {f : Bool} {k a g b : ℚ} (htm : |fl k| < 2 ^ 128) (hd : |g - b| ≤ 40960)
    (ha : |a| ≤ 32768) (hcm : |mulAdd f (fl k) (fl (g - b)) a| ≤ 8192) :
    |mulAdd f (fl k) (fl (g - b)) a - (k * (g - b) + a)| ≤ 8 / 1000 := by
  cases f
  · exact line_err (v := fl (fl k * fl (g - b))) (fl_rel k) htm hd (fl_rel _) (fl_rel _)
      (fl_rel _) ha hcm
  · exact line_err (v := fl k * fl (g - b)) (fl_rel k) htm hd (fl_rel _)
      (by rw [sub_self, abs_zero]; positivity) (fl_rel _) ha hcm

/-! ## Counting the crossings -/

/-- The kept crossings with horizontal lines. -/
def aListF (m : Mode) (rx rz : Nat) (yi sn cs : ℚ) : List (ℚ × ℚ) :=
  (List.range (rz + 1)).filterMap (aPointF rx rz (coordxF m rz (rayXF rx rz) yi sn cs))

/-- The kept crossings with vertical lines. -/
def bListF (m : Mode) (rx rz : Nat) (yi sn cs : ℚ) : List (ℚ × ℚ) :=
  (List.range (rx + 1)).filterMap (bPointF rx rz (coordyF m rx (rayXF rx rz) yi sn cs))

theorem aPointF_some {rx rz : Nat} {cx : Nat → Option ℚ} {n : Nat} {P : ℚ × ℚ} :
    aPointF rx rz cx n = some P ↔ cx n = some P.1 ∧ insideF rx P.1 = true ∧ P.2 = gridF rz n := by
  unfold aPointF
  obtain ⟨p, q⟩ := P
  cases h : cx n with
  | none => simp
  | some x =>
    by_cases hi : insideF rx x = true
    · simp only [hi, if_true, Option.some.injEq, Prod.mk.injEq]
      constructor
      · rintro ⟨rfl, rfl⟩; exact ⟨rfl, hi, rfl⟩
      · rintro ⟨rfl, _, rfl⟩; exact ⟨rfl, rfl⟩
    · simp only [hi]
      constructor
      · intro h; cases h
      · rintro ⟨h1, h2, _⟩
        cases h1
        exact absurd h2 hi

theorem bPointF_some {rx rz : Nat} {cy : Nat → Option ℚ} {n : Nat} {P : ℚ × ℚ} :
    bPointF rx rz cy n = some P ↔ cy n = some P.2 ∧ insideF rz P.2 = true ∧ P.1 = gridF rx n := by
  unfold bPointF
  obtain ⟨p, q⟩ := P
  cases h : cy n with
  | none => simp
  | some x =>
    by_cases hi : insideF rz x = true
    · simp only [hi, if_true, Option.some.injEq, Prod.mk.injEq]
      constructor
      · rintro ⟨rfl, rfl⟩; exact ⟨rfl, hi, rfl⟩
      · rintro ⟨rfl, _, rfl⟩; exact ⟨rfl, rfl⟩
    · simp only [hi]
      constructor
      · intro h; cases h
      · rintro ⟨h1, h2, _⟩
        cases h1
        exact absurd h2 hi

theorem aListF_length_le (m : Mode) (rx rz : Nat) (yi sn cs : ℚ) :
    (aListF m rx rz yi sn cs).length ≤ rz + 1 := by
  refine le_trans (List.length_filterMap_le _ _) ?_
  simp

theorem bListF_length_le (m : Mode) (rx rz : Nat) (yi sn cs : ℚ) :
    (bListF m rx rz yi sn cs).length ≤ rx + 1 := by
  refine le_trans (List.length_filterMap_le _ _) ?_
  simp

/-- If all but one of the lines of a family are kept, the first or the last is. -/
theorem ends_of_count {α : Type*} (pt : Nat → Option α) (r : Nat) (hr : 0 < r)
    (h : r ≤ ((List.range (r + 1)).filterMap pt).length) : ∃ n P, (n = 0 ∨ n = r) ∧ pt n = some P := by
  obtain ⟨k, rfl⟩ : ∃ k, r = k + 1 := ⟨r - 1, by omega⟩
  rw [filterMap_length_le_countP] at h
  have := countP_ends (fun n => (pt n).isSome) k
  by_cases h0 : (pt 0).isSome = true
  · obtain ⟨P, hP⟩ := Option.isSome_iff_exists.mp h0
    exact ⟨0, P, Or.inl rfl, hP⟩
  · by_cases h1 : (pt (k + 1)).isSome = true
    · obtain ⟨P, hP⟩ := Option.isSome_iff_exists.mp h1
      exact ⟨k + 1, P, Or.inr rfl, hP⟩
    · simp only [h0, h1] at this
      simp at this
      rw [show k + 1 + 1 = k + 2 from rfl] at h
      omega

/-- If all lines of a family are kept, the first and the last are. -/
theorem both_of_count {α : Type*} (pt : Nat → Option α) (r : Nat)
    (h : r + 1 ≤ ((List.range (r + 1)).filterMap pt).length) :
    (∃ P, pt 0 = some P) ∧ ∃ P, pt r = some P := by
  rw [filterMap_length_le_countP] at h
  have h1 : ∀ n ∈ List.range (r + 1), (pt n).isSome = true := by
    rw [← List.countP_eq_length]
    refine le_antisymm List.countP_le_length ?_
    simpa using h
  exact ⟨Option.isSome_iff_exists.mp (h1 0 (by simp)), Option.isSome_iff_exists.mp (h1 r (by simp))⟩

/-- A point of a line strictly between two points whose first coordinates are strictly inside an
interval has its first coordinate strictly inside it. -/
theorem between {k a b R S y g : ℚ} (hS : 0 < S) (h1 : |k * (S - b) + a| < R)
    (h2 : |k * (-S - b) + a| < R) (hy : |y| < S) (hg : k * (y - b) + a = g) : |g| < R := by
  rw [abs_lt] at *
  have e : (k * (y - b) + a) * (2 * S) =
      (k * (S - b) + a) * (y + S) + (k * (-S - b) + a) * (S - y) := by ring
  rw [hg] at e
  constructor <;> nlinarith [h1.1, h1.2, h2.1, h2.2, hy.1, hy.2]

theorem divF_some {p q t : ℚ} (h : divF p q = some t) : q ≠ 0 ∧ t = fl (p / q) ∧ |fl (p / q)| < 2 ^ 128 := by
  unfold divF at h
  split at h
  · cases h
  · split at h
    · cases h
      exact ⟨by assumption, rfl, by assumption⟩
    · cases h

/-- The source point of a ray is near the image. -/
theorem src_bounds {xi yi sn cs : ℚ} (hx : |xi| ≤ 16384) (hy : |yi| ≤ 16384) (hs : |sn| ≤ 1)
    (hc : |cs| ≤ 1) (k : Con) : |srcxF k xi yi sn cs| ≤ 32768 ∧ |srcyF k xi yi sn cs| ≤ 32768 := by
  have pr : ∀ x y : ℚ, |x| ≤ 16384 → |y| ≤ 1 → |x * y| ≤ 16384 := by
    intro x y h1 h2
    rw [abs_mul]
    nlinarith [abs_nonneg x, abs_nonneg y]
  have f1 : ∀ x : ℚ, |x| ≤ 16384 → |fl x| ≤ 16384 := by
    intro x h
    rw [abs_le] at *
    refine ⟨?_, ?_⟩
    · have := int_le_fl (x := x) (m := -16384) (by norm_num) (by push_cast; exact h.1)
      push_cast at this
      exact this
    · have := fl_le_int (x := x) (m := 16384) (by norm_num) (by push_cast; exact h.2)
      push_cast at this
      exact this
  have f2 : ∀ x : ℚ, |x| ≤ 32768 → |fl x| ≤ 32768 := by
    intro x h
    rw [abs_le] at *
    refine ⟨?_, ?_⟩
    · have := int_le_fl (x := x) (m := -32768) (by norm_num) (by push_cast; exact h.1)
      push_cast at this
      exact this
    · have := fl_le_int (x := x) (m := 32768) (by norm_num) (by push_cast; exact h.2)
      push_cast at this
      exact this
  have sb : ∀ x y : ℚ, |x| ≤ 16384 → |y| ≤ 16384 → |x - y| ≤ 32768 ∧ |x + y| ≤ 32768 := by
    intro x y h1 h2
    rw [abs_le] at *
    rw [abs_le]
    refine ⟨⟨?_, ?_⟩, ?_, ?_⟩ <;> linarith [h1.1, h1.2, h2.1, h2.2]
  constructor
  · unfold srcxF
    cases k
    · exact f2 _ (sb _ _ (f1 _ (pr _ _ hx hc)) (f1 _ (pr _ _ hy hs))).1
    · exact f2 _ (sb _ _ (pr _ _ hx hc) (f1 _ (pr _ _ hy hs))).1
    · exact f2 _ (sb _ _ (f1 _ (pr _ _ hx hc)) (pr _ _ hy hs)).1
  · unfold srcyF
    cases k
    · exact f2 _ (sb _ _ (f1 _ (pr _ _ hx hs)) (f1 _ (pr _ _ hy hc))).2
    · exact f2 _ (sb _ _ (pr _ _ hx hs) (f1 _ (pr _ _ hy hc))).2
    · exact f2 _ (sb _ _ (f1 _ (pr _ _ hx hs)) (pr _ _ hy hc)).2

theorem rayXF_bound {rx rz : Nat} (h : rx + rz ≤ 2 ^ 14) : |rayXF rx rz| ≤ 16384 := by
  have h1 : rayXF rx rz = -(rx : ℚ) - rz := by
    have := fl_int (m := -(rx : ℤ) - rz) (by rw [abs_le]; constructor <;> omega)
    push_cast at this
    exact this
  rw [h1, abs_le]
  have h2 : (rx : ℚ) + rz ≤ 16384 := by exact_mod_cast h
  have h3 : (0 : ℚ) ≤ rx := by positivity
  have h4 : (0 : ℚ) ≤ rz := by positivity
  constructor <;> linarith

/-- A kept crossing with a horizontal line is near the exact line. -/
theorem a_line {m : Mode} {rx rz n : Nat} {yi sn cs : ℚ} {P : ℚ × ℚ} (h : rx + rz ≤ 2 ^ 14)
    (hy : |yi| ≤ 16384) (hs : |sn| ≤ 1) (hc : |cs| ≤ 1) (hn : n ≤ rz)
    (hP : aPointF rx rz (coordxF m rz (rayXF rx rz) yi sn cs) n = some P) :
    runY m (rayXF rx rz) yi sn cs ≠ 0 ∧
    |runX m (rayXF rx rz) yi sn cs / runY m (rayXF rx rz) yi sn cs *
      (-(rz : ℚ) / 2 + n - srcyF m.sy (rayXF rx rz) yi sn cs) + srcxF m.sx (rayXF rx rz) yi sn cs|
      < (rx : ℚ) / 2 := by
  rw [aPointF_some] at hP
  obtain ⟨h1, h2, h3⟩ := hP
  have hb := insideF_bounds (by omega) h2
  unfold coordxF at h1
  rw [Option.map_eq_some_iff] at h1
  obtain ⟨t, ht, hx⟩ := h1
  obtain ⟨hq, rfl, htm⟩ := divF_some ht
  refine ⟨hq, ?_⟩
  have hX := rayXF_bound h
  have hS := src_bounds hX hy hs hc m.sy
  have hS' := src_bounds hX hy hs hc m.sx
  rw [gridF_eq (by omega) hn] at hx
  have hq1 : (rx : ℚ) + rz ≤ 16384 := by exact_mod_cast h
  have hq2 : (0 : ℚ) ≤ rx := by positivity
  have hq3 : (0 : ℚ) ≤ rz := by positivity
  have hq4 : (n : ℚ) ≤ rz := by exact_mod_cast hn
  have hq5 : (0 : ℚ) ≤ n := by positivity
  have hd : |-(rz : ℚ) / 2 + n - srcyF m.sy (rayXF rx rz) yi sn cs| ≤ 40960 := by
    have := abs_le.mp hS.2
    rw [abs_le]
    constructor <;> linarith [this.1, this.2]
  have e := mulAdd_err (f := m.fx) htm hd hS'.1 (by
    rw [hx, abs_le]
    constructor <;> linarith [hb.1, hb.2])
  rw [hx, abs_le] at e
  rw [abs_lt]
  constructor <;> linarith [e.1, e.2, hb.1, hb.2]

/-- A kept crossing with a vertical line is near the exact line. -/
theorem b_line {m : Mode} {rx rz n : Nat} {yi sn cs : ℚ} {P : ℚ × ℚ} (h : rx + rz ≤ 2 ^ 14)
    (hy : |yi| ≤ 16384) (hs : |sn| ≤ 1) (hc : |cs| ≤ 1) (hn : n ≤ rx)
    (hP : bPointF rx rz (coordyF m rx (rayXF rx rz) yi sn cs) n = some P) :
    runX m (rayXF rx rz) yi sn cs ≠ 0 ∧
    |runY m (rayXF rx rz) yi sn cs / runX m (rayXF rx rz) yi sn cs *
      (-(rx : ℚ) / 2 + n - srcxF m.sx (rayXF rx rz) yi sn cs) + srcyF m.sy (rayXF rx rz) yi sn cs|
      < (rz : ℚ) / 2 := by
  rw [bPointF_some] at hP
  obtain ⟨h1, h2, h3⟩ := hP
  have hb := insideF_bounds (by omega) h2
  unfold coordyF at h1
  rw [Option.map_eq_some_iff] at h1
  obtain ⟨t, ht, hx⟩ := h1
  obtain ⟨hq, rfl, htm⟩ := divF_some ht
  refine ⟨hq, ?_⟩
  have hX := rayXF_bound h
  have hS := src_bounds hX hy hs hc m.sx
  have hS' := src_bounds hX hy hs hc m.sy
  rw [gridF_eq (by omega) hn] at hx
  have hq1 : (rx : ℚ) + rz ≤ 16384 := by exact_mod_cast h
  have hq2 : (0 : ℚ) ≤ rx := by positivity
  have hq3 : (0 : ℚ) ≤ rz := by positivity
  have hq4 : (n : ℚ) ≤ rx := by exact_mod_cast hn
  have hq5 : (0 : ℚ) ≤ n := by positivity
  have hd : |-(rx : ℚ) / 2 + n - srcxF m.sx (rayXF rx rz) yi sn cs| ≤ 40960 := by
    have := abs_le.mp hS.1
    rw [abs_le]
    constructor <;> linarith [this.1, this.2]
  have e := mulAdd_err (f := m.fy) htm hd hS'.2 (by
    rw [hx, abs_le]
    constructor <;> linarith [hb.1, hb.2])
  rw [hx, abs_le] at e
  rw [abs_lt]
  constructor <;> linarith [e.1, e.2, hb.1, hb.2]

/-- All lines of one family and a border line of the other cannot all be crossed inside the
image. -/
theorem no_overflow {p q a b R S g : ℚ} (hp : p ≠ 0) (hq : q ≠ 0) (hS : 0 < S) (hg : |g| = R)
    (h1 : |p / q * (S - b) + a| < R) (h2 : |p / q * (-S - b) + a| < R)
    (h3 : |q / p * (g - a) + b| < S) : False := by
  have := between hS h1 h2 h3 (g := g) (by field_simp; ring)
  linarith

/-- **At most `rx + rz` crossings are kept in `float` arithmetic.** -/
theorem crossingsF_le (m : Mode) {rx rz : Nat} {yi sn cs : ℚ} (hrx : 0 < rx) (hrz : 0 < rz)
    (h : rx + rz ≤ 2 ^ 14) (hy : |yi| ≤ 16384) (hs : |sn| ≤ 1) (hc : |cs| ≤ 1) :
    (aListF m rx rz yi sn cs).length + (bListF m rx rz yi sn cs).length ≤ rx + rz := by
  by_contra hcon
  have ha := aListF_length_le m rx rz yi sn cs
  have hb := bListF_length_le m rx rz yi sn cs
  have qx : (0 : ℚ) < (rx : ℚ) / 2 := by
    have : (0 : ℚ) < rx := by exact_mod_cast hrx
    linarith
  have qz : (0 : ℚ) < (rz : ℚ) / 2 := by
    have : (0 : ℚ) < rz := by exact_mod_cast hrz
    linarith
  have gabs : ∀ r n : Nat, (n = 0 ∨ n = r) → |-(r : ℚ) / 2 + n| = (r : ℚ) / 2 := by
    intro r n hn
    have : (0 : ℚ) ≤ (r : ℚ) / 2 := by positivity
    rcases hn with rfl | rfl
    · rw [Nat.cast_zero, add_zero, neg_div, abs_neg, abs_of_nonneg this]
    · rw [show -(n : ℚ) / 2 + n = (n : ℚ) / 2 by ring, abs_of_nonneg this]
  rcases (by omega : (rz + 1 ≤ (aListF m rx rz yi sn cs).length ∧
      rx ≤ (bListF m rx rz yi sn cs).length) ∨ (rx + 1 ≤ (bListF m rx rz yi sn cs).length ∧
      rz ≤ (aListF m rx rz yi sn cs).length)) with ⟨h1, h2⟩ | ⟨h1, h2⟩
  · obtain ⟨⟨P, hP⟩, Q, hQ⟩ := both_of_count _ _ h1
    obtain ⟨n, T, hn, hT⟩ := ends_of_count _ _ hrx h2
    have l1 := a_line h hy hs hc (Nat.zero_le rz) hP
    have l2 := a_line h hy hs hc (le_refl rz) hQ
    have l3 := b_line h hy hs hc (by omega) hT
    refine no_overflow l3.1 l1.1 qz (gabs rx n hn) ?_ ?_ l3.2
    · have := l2.2
      rwa [show -(rz : ℚ) / 2 + rz = (rz : ℚ) / 2 by ring] at this
    · have := l1.2
      rwa [Nat.cast_zero, add_zero, neg_div] at this
  · obtain ⟨⟨P, hP⟩, Q, hQ⟩ := both_of_count _ _ h1
    obtain ⟨n, T, hn, hT⟩ := ends_of_count _ _ hrz h2
    have l1 := b_line h hy hs hc (Nat.zero_le rx) hP
    have l2 := b_line h hy hs hc (le_refl rx) hQ
    have l3 := a_line h hy hs hc (by omega) hT
    refine no_overflow l3.1 l1.1 qx (gabs rz n hn) ?_ ?_ l3.2
    · have := l2.2
      rwa [show -(rx : ℚ) / 2 + rx = (rx : ℚ) / 2 by ring] at this
    · have := l1.2
      rwa [Nat.cast_zero, add_zero, neg_div] at this

/-! ## The pixels -/

/-- A point of the closed image. -/
def KeptF (rx rz : Nat) (P : ℚ × ℚ) : Prop :=
  (-(rx : ℚ) / 2 ≤ P.1 ∧ P.1 ≤ (rx : ℚ) / 2) ∧ (-(rz : ℚ) / 2 ≤ P.2 ∧ P.2 ≤ (rz : ℚ) / 2)

/-- In either coordinate one of two points keeps a distance from the upper border. -/
def ApartF (rx rz : Nat) (P Q : ℚ × ℚ) : Prop :=
  (P.1 ≤ (rx : ℚ) / 2 - 9 / 1000 ∨ Q.1 ≤ (rx : ℚ) / 2 - 9 / 1000) ∧
  (P.2 ≤ (rz : ℚ) / 2 - 9 / 1000 ∨ Q.2 ≤ (rz : ℚ) / 2 - 9 / 1000)

theorem ApartF.symm {rx rz : Nat} {P Q : ℚ × ℚ} (h : ApartF rx rz P Q) : ApartF rx rz Q P :=
  ⟨h.1.symm, h.2.symm⟩

theorem grid_mem {r n : Nat} (hn : n ≤ r) :
    -(r : ℚ) / 2 ≤ -(r : ℚ) / 2 + n ∧ -(r : ℚ) / 2 + n ≤ (r : ℚ) / 2 := by
  have h1 : (n : ℚ) ≤ r := by exact_mod_cast hn
  have h2 : (0 : ℚ) ≤ n := by positivity
  constructor <;> linarith

theorem mem_aListF {m : Mode} {rx rz : Nat} {yi sn cs : ℚ} {P : ℚ × ℚ}
    (hrx : rx ≤ 2 ^ 15) (hrz : rz ≤ 2 ^ 15) (h : P ∈ aListF m rx rz yi sn cs) :
    KeptF rx rz P ∧ P.1 ≤ (rx : ℚ) / 2 - 9 / 1000 := by
  rw [aListF, List.mem_filterMap] at h
  obtain ⟨n, hn, hp⟩ := h
  rw [List.mem_range] at hn
  rw [aPointF_some] at hp
  have hb := insideF_bounds hrx hp.2.1
  refine ⟨⟨⟨by linarith [hb.1], by linarith [hb.2]⟩, ?_⟩, hb.2⟩
  rw [hp.2.2, gridF_eq (by omega) (by omega)]
  exact grid_mem (by omega)

theorem mem_bListF {m : Mode} {rx rz : Nat} {yi sn cs : ℚ} {P : ℚ × ℚ}
    (hrx : rx ≤ 2 ^ 15) (hrz : rz ≤ 2 ^ 15) (h : P ∈ bListF m rx rz yi sn cs) :
    KeptF rx rz P ∧ P.2 ≤ (rz : ℚ) / 2 - 9 / 1000 := by
  rw [bListF, List.mem_filterMap] at h
  obtain ⟨n, hn, hp⟩ := h
  rw [List.mem_range] at hn
  rw [bPointF_some] at hp
  have hb := insideF_bounds hrz hp.2.1
  refine ⟨⟨?_, ⟨by linarith [hb.1], by linarith [hb.2]⟩⟩, hb.2⟩
  rw [hp.2.2, gridF_eq (by omega) (by omega)]
  exact grid_mem (by omega)

theorem grid_step {r n k : Nat} (hr : r ≤ 2 ^ 15) (hk : k ≤ r) (h : n < k) :
    gridF r n ≤ (r : ℚ) / 2 - 9 / 1000 := by
  rw [gridF_eq (by omega) (by omega)]
  have h1 : (n : ℚ) + 1 ≤ r := by exact_mod_cast (by omega : n + 1 ≤ r)
  linarith

theorem pairwise_apartF (m : Mode) {rx rz : Nat} (yi sn cs : ℚ) (hrx : rx ≤ 2 ^ 15)
    (hrz : rz ≤ 2 ^ 15) :
    (aListF m rx rz yi sn cs ++ bListF m rx rz yi sn cs).Pairwise (ApartF rx rz) := by
  rw [List.pairwise_append]
  refine ⟨?_, ?_, ?_⟩
  · have h : (aListF m rx rz yi sn cs).Pairwise fun P _ => P.2 ≤ (rz : ℚ) / 2 - 9 / 1000 := by
      unfold aListF
      rw [List.pairwise_filterMap]
      refine (List.pairwise_lt_range).imp_of_mem ?_
      intro n k hn hk hnk P hP Q hQ
      rw [aPointF_some] at hP
      rw [hP.2.2]
      rw [List.mem_range] at hk
      exact grid_step hrz (by omega) hnk
    refine h.imp_of_mem ?_
    intro P Q hP hQ h
    exact ⟨Or.inl (mem_aListF hrx hrz hP).2, Or.inl h⟩
  · have h : (bListF m rx rz yi sn cs).Pairwise fun P _ => P.1 ≤ (rx : ℚ) / 2 - 9 / 1000 := by
      unfold bListF
      rw [List.pairwise_filterMap]
      refine (List.pairwise_lt_range).imp_of_mem ?_
      intro n k hn hk hnk P hP Q hQ
      rw [bPointF_some] at hP
      rw [hP.2.2]
      rw [List.mem_range] at hk
      exact grid_step hrx (by omega) hnk
    refine h.imp_of_mem ?_
    intro P Q hP hQ h
    exact ⟨Or.inl h, Or.inl (mem_bListF hrx hrz hP).2⟩
  · intro P hP Q hQ
    exact ⟨Or.inl (mem_aListF hrx hrz hP).2, Or.inr (mem_bListF hrx hrz hQ).2⟩

theorem mem_calcIndF {rx rz : Nat} {l : List (ℚ × ℚ)} {e : Int} (h : e ∈ calcIndF rx rz l) :
    ∃ P Q, [P, Q].Sublist l ∧ e = pixelIndexF rz P.2 Q.2 + pixelIndexF rx P.1 Q.1 * (rz : Int) := by
  fun_induction calcIndF rx rz l with
  | case1 => cases h
  | case2 => cases h
  | case3 P Q rest ih =>
    rcases List.mem_cons.mp h with h | h
    · exact ⟨P, Q, by simp, h⟩
    · obtain ⟨P', Q', hs, he⟩ := ih h
      exact ⟨P', Q', hs.trans (List.sublist_cons_self _ _), he⟩

theorem traceF_eq (m : Mode) (caps : Caps) (q : Int) (rx rz : Nat) (yi sn cs : ℚ) :
    traceF m caps q rx rz yi sn cs =
      if (aListF m rx rz yi sn cs).length ≤ caps.ab ∧ (bListF m rx rz yi sn cs).length ≤ caps.ab ∧
          (aListF m rx rz yi sn cs).length + (bListF m rx rz yi sn cs).length ≤ caps.coor ∧
          (aListF m rx rz yi sn cs).length + (bListF m rx rz yi sn cs).length - 1 ≤ caps.seg
      then some (calcIndF rx rz
        (sortIntersections q (aListF m rx rz yi sn cs) (bListF m rx rz yi sn cs)))
      else none := by
  unfold traceF
  rw [trimLoop_eq, trimLoop_eq]
  show (do
    let as ← (if (aListF m rx rz yi sn cs).length ≤ caps.ab
      then some (aListF m rx rz yi sn cs) else none)
    let bs ← (if (bListF m rx rz yi sn cs).length ≤ caps.ab
      then some (bListF m rx rz yi sn cs) else none)
    if as.length + bs.length ≤ caps.coor ∧ as.length + bs.length - 1 ≤ caps.seg then
      some (calcIndF rx rz (sortIntersections q as bs))
    else none) = _
  by_cases h1 : (aListF m rx rz yi sn cs).length ≤ caps.ab
  · by_cases h2 : (bListF m rx rz yi sn cs).length ≤ caps.ab
    · simp [h1, h2]
    · simp [h1, h2]
  · simp [h1]

/-- The pixel indices of a ray are inside the image, whatever the coordinates are. -/
theorem index_mem (m : Mode) (q : Int) {rx rz : Nat} (yi sn cs : ℚ) (hrx : rx ≤ 2 ^ 15)
    (hrz : rz ≤ 2 ^ 15) {e : Int} (he : e ∈ calcIndF rx rz
      (sortIntersections q (aListF m rx rz yi sn cs) (bListF m rx rz yi sn cs))) :
    0 ≤ e ∧ e < (rx * rz : Nat) := by
  obtain ⟨P, Q, hs, rfl⟩ := mem_calcIndF he
  have hperm := sortIntersections_perm q (aListF m rx rz yi sn cs) (bListF m rx rz yi sn cs)
  have hpw := (pairwise_apartF m yi sn cs hrx hrz).perm hperm.symm (fun h => ApartF.symm h)
  have hap : ApartF rx rz P Q := by
    have := hpw.sublist hs
    simpa using this
  have hk : ∀ T ∈ sortIntersections q (aListF m rx rz yi sn cs) (bListF m rx rz yi sn cs),
      KeptF rx rz T := by
    intro T hT
    rcases List.mem_append.mp (hperm.mem_iff.mp hT) with h | h
    · exact (mem_aListF hrx hrz h).1
    · exact (mem_bListF hrx hrz h).1
  have hP := hk P (hs.subset (by simp))
  have hQ := hk Q (hs.subset (by simp))
  have i1 := pixelIndexF_mem hrx hP.1 hQ.1 hap.1
  have i2 := pixelIndexF_mem hrz hP.2 hQ.2 hap.2
  push_cast
  constructor <;> nlinarith [i1.1, i1.2, i2.1, i2.2]

/-! ## The properties -/

/-- **The ray tracer of the reconstruction kernels is memory safe in `float` arithmetic.**  For an
image with `rx + rz ≤ 16384`, any sine and cosine, any offset `|yi| ≤ 16384` and any contraction
chosen by the compiler, no buffer of `rx + rz` elements overflows and every pixel index is inside
the image. -/
theorem traceF_safe (m : Mode) (q : Int) {rx rz : Nat} {yi sn cs : ℚ} (hrx : 0 < rx) (hrz : 0 < rz)
    (h : rx + rz ≤ 2 ^ 14) (hy : |yi| ≤ 16384) (hs : |sn| ≤ 1) (hc : |cs| ≤ 1) :
    ∃ l, traceF m (capsRecon rx rz) q rx rz yi sn cs = some l ∧
      ∀ e ∈ l, 0 ≤ e ∧ e < (rx * rz : Nat) := by
  have hle := crossingsF_le m hrx hrz h hy hs hc
  rw [traceF_eq, if_pos]
  · exact ⟨_, rfl, fun e he => index_mem m q yi sn cs (by omega) (by omega) he⟩
  · simp only [capsRecon]
    omega

/-- The buffers of `project` are large enough for any coordinates, and every index is inside the
image up to `2¹⁵` pixels per axis, without a condition on the offset of the ray. -/
theorem traceF_safe_project (m : Mode) (q : Int) {rx rz : Nat} {yi sn cs : ℚ} (hrx : rx ≤ 2 ^ 15)
    (hrz : rz ≤ 2 ^ 15) :
    ∃ l, traceF m (capsProject rx rz) q rx rz yi sn cs = some l ∧
      ∀ e ∈ l, 0 ≤ e ∧ e < (rx * rz : Nat) := by
  have ha := aListF_length_le m rx rz yi sn cs
  have hb := bListF_length_le m rx rz yi sn cs
  rw [traceF_eq, if_pos]
  · exact ⟨_, rfl, fun e he => index_mem m q yi sn cs hrx hrz he⟩
  · simp only [capsProject]
    omega

/-- The offset of a ray of a detector with at most `8192` pixels whose centre of rotation is on the
detector is within the bound of `traceF_safe`. -/
theorem rayYF_bound {dx d : Nat} {center : ℚ} (hdx : dx ≤ 2 ^ 13) (hd : d < dx) (h0 : 0 ≤ center)
    (h1 : center ≤ dx) : |rayYF dx d (movF dx center)| ≤ 16384 := by
  have ff : ∀ (x : ℚ) (B : ℤ), 0 ≤ B → B ≤ 2 ^ 24 → |x| ≤ B → |fl x| ≤ B := by
    intro x B hB hB' h
    rw [abs_le] at *
    refine ⟨?_, ?_⟩
    · have := int_le_fl (x := x) (m := -B) (by rw [abs_neg, abs_of_nonneg hB]; exact hB')
        (by push_cast; exact h.1)
      push_cast at this
      exact this
    · exact fl_le_int (by rw [abs_of_nonneg hB]; exact hB') h.2
  have hdq : (dx : ℚ) ≤ 8192 := by exact_mod_cast hdx
  have hd1 : (1 : ℚ) ≤ dx := by exact_mod_cast (by omega : 1 ≤ dx)
  have hdd : (d : ℚ) + 1 ≤ dx := by exact_mod_cast hd
  have hd0 : (0 : ℚ) ≤ d := by positivity
  have hc := c01_bounds
  have ix : fl (dx : ℚ) = dx := by
    have := fl_int (m := (dx : ℤ)) (by rw [abs_of_nonneg (by positivity)]; omega)
    push_cast at this
    exact this
  have id' : fl (d : ℚ) = d := by
    have := fl_int (m := (d : ℤ)) (by rw [abs_of_nonneg (by positivity)]; omega)
    push_cast at this
    exact this
  have ix1 : fl ((dx : ℚ) - 1) = (dx : ℚ) - 1 := by
    have := fl_int (m := (dx : ℤ) - 1) (by rw [abs_le]; constructor <;> omega)
    push_cast at this
    exact this
  have ih : fl (((dx : ℚ) - 1) * (1 / 2)) = ((dx : ℚ) - 1) / 2 := by
    have := fl_half (m := (dx : ℤ) - 1) (by rw [abs_le]; constructor <;> omega)
    push_cast at this
    rw [show ((dx : ℚ) - 1) * (1 / 2) = ((dx : ℚ) - 1) / 2 by ring]
    exact this
  have i1x : fl ((1 / 2) * fl (1 - (dx : ℚ))) = (1 - (dx : ℚ)) / 2 := by
    have e := fl_int (m := 1 - (dx : ℤ)) (by rw [abs_le]; constructor <;> omega)
    have := fl_half (m := 1 - (dx : ℤ)) (by rw [abs_le]; constructor <;> omega)
    push_cast at this e
    rw [e, show (1 / 2 : ℚ) * (1 - (dx : ℚ)) = (1 - (dx : ℚ)) / 2 by ring]
    exact this
  have m0 : |mov0F dx center| ≤ 8192 := by
    unfold mov0F
    rw [ix, ix1, ih]
    have := ff (((dx : ℚ) - 1) / 2 - center) 8192 (by norm_num) (by norm_num)
      (by rw [abs_le]; push_cast; constructor <;> linarith)
    push_cast at this
    exact this
  have m0' := abs_le.mp m0
  have m1 : |movF dx center| ≤ 8194 := by
    unfold movF
    have hin : |(if mov0F dx center - ⌊mov0F dx center⌋ < c01
        then fl (mov0F dx center + c01) else mov0F dx center)| ≤ 8193 := by
      split
      · have := ff (mov0F dx center + c01) 8193 (by norm_num) (by norm_num)
          (by rw [abs_le]; push_cast; constructor <;> linarith [hc.1, hc.2])
        push_cast at this
        exact this
      · linarith
    have hin' := abs_le.mp hin
    have := ff ((if mov0F dx center - ⌊mov0F dx center⌋ < c01
        then fl (mov0F dx center + c01) else mov0F dx center) + 1 / 2) 8194 (by norm_num)
        (by norm_num) (by rw [abs_le]; push_cast; constructor <;> linarith [hin'.1, hin'.2])
    push_cast at this
    exact this
  have m1' := abs_le.mp m1
  unfold rayYF
  rw [i1x, id']
  have y1 : |fl ((1 - (dx : ℚ)) / 2 + d)| ≤ 8190 := by
    have := ff ((1 - (dx : ℚ)) / 2 + d) 8190 (by norm_num) (by norm_num)
      (by rw [abs_le]; push_cast; constructor <;> linarith)
    push_cast at this
    exact this
  have y1' := abs_le.mp y1
  have := ff (fl ((1 - (dx : ℚ)) / 2 + d) + movF dx center) 16384 (by norm_num) (by norm_num)
    (by rw [abs_le]; push_cast; constructor <;> linarith)
  push_cast at this
  exact this

/-- **Every ray of a reconstruction** of a detector with `dx ≤ 8192` pixels on a square grid of
`dx × dx` pixels, for a centre of rotation on the detector. -/
theorem reconF_safe (m : Mode) (q : Int) {dx d : Nat} {center sn cs : ℚ} (hdx : dx ≤ 2 ^ 13)
    (hd : d < dx) (h0 : 0 ≤ center) (h1 : center ≤ dx) (hs : |sn| ≤ 1) (hc : |cs| ≤ 1) :
    ∃ l, traceF m (capsRecon dx dx) q dx dx (rayYF dx d (movF dx center)) sn cs = some l ∧
      ∀ e ∈ l, 0 ≤ e ∧ e < (dx * dx : Nat) :=
  traceF_safe m q (by omega) (by omega) (by omega) (rayYF_bound hdx hd h0 h1) hs hc

/-- A ray with rounded coordinates: 4 × 4 pixels, slope about `1/3`, two horizontal and five
vertical lines are crossed; the hypotheses of `reconF_safe` hold. -/
example : (aListF ⟨.no, .left, .right, .no, true, false⟩ 4 4
      (rayYF 4 1 (movF 4 2)) (fl (3 / 10)) (fl (19 / 20))).length = 2 ∧
    (bListF ⟨.no, .left, .right, .no, true, false⟩ 4 4
      (rayYF 4 1 (movF 4 2)) (fl (3 / 10)) (fl (19 / 20))).length = 5 ∧
    |fl (3 / 10)| ≤ 1 ∧ |fl (19 / 20)| ≤ 1 := by
  decide +kernel

/-- The bound of `traceF_safe_project` is met with all crossings kept on a grid of one pixel row. -/
example : (aListF ⟨.no, .no, .no, .no, false, false⟩ 3 1 (1 / 4) 1 0).length = 2 ∧
    (bListF ⟨.no, .no, .no, .no, false, false⟩ 3 1 (1 / 4) 0 1).length = 4 := by
  decide +kernel

/-- **Beyond that the margin of `0.01` is lost.**  With `131074` pixels along one axis a crossing
that passes the test of `trim_coords` and the border line give the index `131074`, one past the
last pixel. -/
theorem index_out_of_range :
    insideF 131074 (fl (gridF 131074 131074 - c01)) = true ∧
    pixelIndexF 131074 (fl (gridF 131074 131074 - c01)) (gridF 131074 131074) = 131074 := by
  decide +kernel

end Tomopy.Fl
