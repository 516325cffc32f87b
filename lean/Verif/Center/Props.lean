import Verif.Center.Model
import Verif.Mproc.Props
import Mathlib.Data.Rat.Floor
import Mathlib.Algebra.Order.Archimedean.Real.Basic
import Mathlib.Tactic.Linarith
import Mathlib.Tactic.FieldSimp
import Mathlib.Tactic.Ring
import Mathlib.Tactic.NormNum
import Mathlib.Tactic.Positivity

/-! C47: the candidates of the rotation centre search and what it returns. -/

set_option linter.unusedSectionVars false

namespace Tomopy.Center

variable {K : Type} [Field K] [LinearOrder K] [IsStrictOrderedRing K] [FloorRing K]

/-! ### Lists -/

theorem mem_arange (a b s : K) (hs : 0 < s) (x : K) :
    x ∈ arange a b s ↔ ∃ i : Nat, x = a + i * s ∧ x < b := by
  unfold arange
  rw [List.mem_map]
  constructor
  · rintro ⟨i, hi, rfl⟩
    rw [List.mem_range, Nat.lt_ceil, lt_div_iff₀ hs] at hi
    exact ⟨i, rfl, by linarith⟩
  · rintro ⟨i, rfl, h⟩
    refine ⟨i, ?_, rfl⟩
    rw [List.mem_range, Nat.lt_ceil, lt_div_iff₀ hs]
    linarith

theorem argminFrom_spec (L : List K) : ∀ (l : List K) (b : K) (p i : Nat), L.drop i = l →
    L[p]? = some b → ∃ v, L[argminFrom b p i l]? = some v ∧ v ≤ b ∧ ∀ x ∈ l, v ≤ x := by
  intro l
  induction l with
  | nil => intro b p i _ hp; exact ⟨b, hp, le_rfl, by simp⟩
  | cons y l ih =>
    intro b p i hd hp
    have hy : L[i]? = some y := by
      have := congrArg (fun t => t[0]?) hd
      simpa using this
    have hd' : L.drop (i + 1) = l := by
      rw [← List.drop_drop, hd]
      rfl
    unfold argminFrom
    split_ifs with h
    · obtain ⟨v, h1, h2, h3⟩ := ih y i (i + 1) hd' hy
      exact ⟨v, h1, h2.trans h.le, by simpa [h2] using h3⟩
    · obtain ⟨v, h1, h2, h3⟩ := ih b p (i + 1) hd' hp
      exact ⟨v, h1, h2, by simpa [h2.trans (not_lt.1 h)] using h3⟩

theorem argmin_spec (L : List K) (p : Nat) (h : argmin L = .ok p) :
    ∃ v, L[p]? = some v ∧ ∀ x ∈ L, v ≤ x := by
  cases L with
  | nil => cases h
  | cons x l =>
    unfold argmin at h
    injection h with h
    obtain ⟨v, h1, h2, h3⟩ := argminFrom_spec (x :: l) l x 0 1 rfl rfl
    exact ⟨v, h ▸ h1, by simpa [h2] using h3⟩

/-- The common end of both searches. -/
theorem best_spec (l : List K) (f : K → K) (res : Except PyErr K)
    (h : (do
      let p ← argmin (l.map f)
      match l[p]? with
      | some cor => Except.ok cor
      | none => .error .index) = res) :
    (l = [] ∧ res = .error .value) ∨ ∃ c ∈ l, res = .ok c ∧ ∀ c' ∈ l, f c ≤ f c' := by
  cases hl : l with
  | nil =>
    subst hl
    exact Or.inl ⟨rfl, h.symm⟩
  | cons x t =>
    rw [← hl]
    right
    have hne : l.map f ≠ [] := by simp [hl]
    obtain ⟨p, hp⟩ : ∃ p, argmin (l.map f) = .ok p := by
      cases hm : l.map f with
      | nil => exact absurd hm hne
      | cons a b => exact ⟨_, rfl⟩
    obtain ⟨v, h1, h2⟩ := argmin_spec _ _ hp
    rw [hp] at h
    rw [List.getElem?_map, Option.map_eq_some_iff] at h1
    obtain ⟨c, hc, hv⟩ := h1
    refine ⟨c, List.mem_of_getElem? hc, ?_, ?_⟩
    · rw [← h]
      show (match l[p]? with
        | some cor => Except.ok cor
        | none => Except.error PyErr.index) = .ok c
      rw [hc]
    · intro c' hc'
      rw [hv]
      exact h2 _ (List.mem_map.2 ⟨c', hc', rfl⟩)

/-! ### Coarse search -/

/-- Half of the detector, in whole pixels. -/
def half (ncol : Nat) : Int := ((ncol - 1) / 2 : Nat)

theorem cen_bounds (ncol : Nat) (hn : 0 < ncol) :
    (half ncol : K) ≤ cenFliplr ncol ∧ cenFliplr ncol < (half ncol : K) + 1 ∧
    (0 : K) ≤ cenFliplr ncol := by
  unfold half cenFliplr
  obtain ⟨m, rfl⟩ : ∃ m, ncol = m + 1 := ⟨ncol - 1, by omega⟩
  have h1 : 2 * ((m + 1 - 1) / 2) ≤ m := by omega
  have h2 : m < 2 * ((m + 1 - 1) / 2) + 2 := by omega
  generalize (m + 1 - 1) / 2 = q at *
  have h1' : (2 * (q : K)) ≤ m := by exact_mod_cast h1
  have h2' : (m : K) < 2 * (q : K) + 2 := by exact_mod_cast h2
  have h3 : (0 : K) ≤ m := Nat.cast_nonneg m
  push_cast at h1' h2' ⊢
  refine ⟨?_, ?_, ?_⟩ <;> linarith

theorem int16_of_small (y : K) (h1 : -(32768 : K) ≤ y) (h2 : y < 32768) :
    (0 ≤ y → int16 y = ⌊y⌋) ∧ (y < 0 → int16 y = ⌈y⌉) := by
  constructor
  · intro h
    unfold int16
    rw [if_pos h]
    have a : (0 : Int) ≤ ⌊y⌋ := Int.floor_nonneg.2 h
    have b : ⌊y⌋ < 32768 := Int.floor_lt.2 (by exact_mod_cast h2)
    omega
  · intro h
    unfold int16
    rw [if_neg (not_le.2 h)]
    have a : ⌈y⌉ ≤ 0 := Int.ceil_le.2 (by exact_mod_cast h.le)
    have b : -32769 < ⌈y⌉ := Int.lt_ceil.2 (by push_cast; linarith)
    omega

theorem clip_sub (ncol : Nat) (hn : 0 < ncol) (s : K) :
    clip (s + cenFliplr ncol) 0 ((ncol : K) - 1) - cenFliplr ncol
      = max (min s (cenFliplr ncol)) (-cenFliplr ncol) := by
  obtain ⟨_, _, h0⟩ := cen_bounds (K := K) ncol hn
  have e : (ncol : K) - 1 = 2 * cenFliplr ncol := by unfold cenFliplr; ring
  unfold clip
  rw [e]
  generalize cenFliplr (K := K) ncol = c at *
  rcases le_total s c with a | a <;> rcases le_total s (-c) with b | b
  · rw [min_eq_left a, max_eq_right b, max_eq_right (by linarith), min_eq_left (by linarith)]; ring
  · rw [min_eq_left a, max_eq_left b, max_eq_left (by linarith), min_eq_left (by linarith)]; ring
  · rw [min_eq_right a, max_eq_left (by linarith), max_eq_right (by linarith),
      min_eq_left (by linarith)]
    linarith
  · rw [min_eq_right a, max_eq_left (by linarith), max_eq_left (by linarith),
      min_eq_right (by linarith)]
    ring

/-- The search limits never leave the detector, and move toward the middle only. -/
theorem limit_bounds (ncol : Nat) (hn : 0 < ncol) (hn2 : ncol ≤ 65536) (s : K) :
    -half ncol ≤ limit ncol s ∧ limit ncol s ≤ half ncol ∧
    (s ≤ 0 → s ≤ limit ncol s ∧ limit ncol s ≤ 0) ∧
    (0 ≤ s → (limit ncol s : K) ≤ s ∧ 0 ≤ limit ncol s) := by
  obtain ⟨h1, h2, h0⟩ := cen_bounds (K := K) ncol hn
  have hc : cenFliplr (K := K) ncol < 32768 := by
    unfold cenFliplr
    have : (ncol : K) ≤ 65536 := by exact_mod_cast hn2
    linarith
  have hfl : ⌊cenFliplr (K := K) ncol⌋ = half ncol := by
    rw [Int.floor_eq_iff]
    exact ⟨h1, h2⟩
  unfold limit
  rw [clip_sub ncol hn]
  generalize hce : cenFliplr (K := K) ncol = c at *
  generalize hy : max (min s c) (-c) = y
  have y1 : y ≤ c := by rw [← hy]; exact max_le (min_le_right _ _) (by linarith)
  have y2 : -c ≤ y := by rw [← hy]; exact le_max_right _ _
  obtain ⟨i1, i2⟩ := int16_of_small y (by linarith) (by linarith)
  rcases le_or_gt 0 y with hp | hp
  · rw [i1 hp]
    have f1 : ⌊y⌋ ≤ half ncol := by rw [← hfl]; exact Int.floor_mono y1
    have f0 : 0 ≤ ⌊y⌋ := Int.floor_nonneg.2 hp
    refine ⟨by omega, f1, ?_, ?_⟩
    · intro hs
      have hy0 : y = 0 := by
        refine le_antisymm ?_ hp
        rw [← hy]
        exact max_le ((min_le_left _ _).trans hs) (by linarith)
      rw [hy0]
      simp [hs]
    · intro hs
      refine ⟨?_, f0⟩
      have : y ≤ s := by
        rw [← hy]
        exact max_le (min_le_left _ _) (by linarith)
      exact (Int.floor_le y).trans this
  · rw [i2 hp]
    have f1 : -half ncol ≤ ⌈y⌉ := by
      rw [← hfl, ← Int.ceil_neg]
      exact Int.ceil_mono y2
    have f0 : ⌈y⌉ ≤ 0 := Int.ceil_le.2 (by exact_mod_cast hp.le)
    have hh : 0 ≤ half ncol := by unfold half; omega
    refine ⟨f1, by omega, ?_, ?_⟩
    · intro hs
      refine ⟨?_, f0⟩
      have : s ≤ y := by
        rw [← hy]
        exact le_max_of_le_left (le_min le_rfl (by linarith))
      exact this.trans (Int.le_ceil y)
    · intro hs
      exfalso
      have : 0 ≤ y := by
        rw [← hy]
        exact le_max_of_le_left (le_min hs h0)
      linarith

/-- For whole numbers the limit is the given one clipped to the detector. -/
theorem limit_int (ncol : Nat) (hn : 0 < ncol) (hn2 : ncol ≤ 65536) (s : Int) :
    limit (K := K) ncol (s : K) = max (min s (half ncol)) (-half ncol) := by
  obtain ⟨h1, h2, h0⟩ := cen_bounds (K := K) ncol hn
  have hc : cenFliplr (K := K) ncol < 32768 := by
    unfold cenFliplr
    have : (ncol : K) ≤ 65536 := by exact_mod_cast hn2
    linarith
  have hfl : ⌊cenFliplr (K := K) ncol⌋ = half ncol := by
    rw [Int.floor_eq_iff]
    exact ⟨h1, h2⟩
  have hh : 0 ≤ half ncol := by unfold half; omega
  unfold limit
  rw [clip_sub ncol hn]
  generalize hce : cenFliplr (K := K) ncol = c at *
  rcases le_or_gt 0 s with hs | hs
  · have hs' : (0 : K) ≤ s := by exact_mod_cast hs
    have e : max (min (s : K) c) (-c) = min (s : K) c := max_eq_left (le_min (by linarith) (by linarith))
    rw [e, (int16_of_small (min (s : K) c) (by have := le_min hs' h0; linarith)
      (by have := min_le_right (s : K) c; linarith)).1 (le_min hs' h0)]
    rw [max_eq_left (by omega)]
    rcases le_total (s : K) c with a | a
    · rw [min_eq_left a, Int.floor_intCast, min_eq_left]
      rw [← hfl]
      exact Int.le_floor.2 a
    · rw [min_eq_right a, hfl, min_eq_right]
      rw [← hfl, ← Int.floor_intCast (R := K) s]
      exact Int.floor_mono a
  · have hs' : (s : K) < 0 := by exact_mod_cast hs
    have e : max (min (s : K) c) (-c) = max (s : K) (-c) := by rw [min_eq_left (by linarith)]
    rw [e, min_eq_left (by omega)]
    rcases le_total (-c) (s : K) with a | a
    · rw [max_eq_left a, (int16_of_small (s : K) (by linarith) (by linarith)).2 hs',
        Int.ceil_intCast, max_eq_left]
      rw [← hfl, ← Int.ceil_neg]
      exact Int.ceil_le.2 a
    · have e3 : int16 (-c) = -half ncol := by
        rcases h0.eq_or_lt with h | h
        · rw [← hfl, ← h]
          simp [int16]
        · rw [(int16_of_small (-c) (by linarith) (by linarith)).2 (by linarith), Int.ceil_neg, hfl]
      rw [max_eq_right a, e3, max_eq_right]
      rw [← hfl, ← Int.ceil_neg]
      have : (s : K) ≤ ⌈-c⌉ := a.trans (Int.le_ceil _)
      exact_mod_cast this

/-- **C47** (coarse candidates).  The candidates of the coarse search are all multiples of one half
between the two limits. -/
theorem mem_coarseList (ncol : Nat) (smin smax : K) (c : K) :
    c ∈ coarseList ncol smin smax ↔ (∃ k : Int, c = k / 2) ∧
      ((ncol / 2 : Nat) : K) + limit ncol smin ≤ c ∧ c ≤ ((ncol / 2 : Nat) : K) + limit ncol smax := by
  unfold coarseList
  rw [mem_arange _ _ _ (by norm_num)]
  generalize limit ncol smin = a
  generalize limit ncol smax = b
  generalize ncol / 2 = q
  constructor
  · rintro ⟨i, rfl, h⟩
    have hi : (0 : K) ≤ i := Nat.cast_nonneg i
    refine ⟨⟨2 * ((q : Int) + a) + i, by push_cast; ring⟩, by linarith, ?_⟩
    have h' : (((2 * a + i : Int)) : K) < ((2 * b + 1 : Int) : K) := by push_cast; linarith
    have h'' : 2 * a + i < 2 * b + 1 := by exact_mod_cast h'
    have h3 : ((2 * a + i : Int) : K) ≤ ((2 * b : Int) : K) := by exact_mod_cast (by omega)
    push_cast at h3
    linarith
  · rintro ⟨⟨k, rfl⟩, h1, h2⟩
    have h1' : ((2 * ((q : Int) + a) : Int) : K) ≤ (k : K) := by push_cast at h1 ⊢; linarith
    have h1'' : 2 * ((q : Int) + a) ≤ k := by exact_mod_cast h1'
    obtain ⟨i, hi⟩ : ∃ i : Nat, (i : Int) = k - 2 * ((q : Int) + a) :=
      ⟨(k - 2 * ((q : Int) + a)).toNat, by omega⟩
    refine ⟨i, ?_, by linarith⟩
    have : ((i : Int) : K) = ((k - 2 * ((q : Int) + a) : Int) : K) := by rw [hi]
    push_cast at this ⊢
    rw [this]
    ring

/-- **C47** (coarse window).  Every coarse candidate lies on the detector, and, if the window
contains the centre of the detector, inside the requested window. -/
theorem coarse_window_partial (ncol : Nat) (hn : 0 < ncol) (hn2 : ncol ≤ 65536) (smin smax c : K)
    (h : c ∈ coarseList ncol smin smax) :
    0 ≤ c ∧ c ≤ (ncol : K) - 1 ∧
    (smin ≤ 0 → ((ncol / 2 : Nat) : K) + smin ≤ c) ∧
    (0 ≤ smax → c ≤ ((ncol / 2 : Nat) : K) + smax) := by
  rw [mem_coarseList] at h
  obtain ⟨_, h1, h2⟩ := h
  obtain ⟨a1, _, a3, _⟩ := limit_bounds ncol hn hn2 smin
  obtain ⟨_, b2, _, b4⟩ := limit_bounds ncol hn hn2 smax
  have e1 : half ncol ≤ ((ncol / 2 : Nat) : Int) := by unfold half; omega
  have e2 : ((ncol / 2 : Nat) : Int) + half ncol ≤ (ncol : Int) - 1 := by unfold half; omega
  generalize ncol / 2 = q at *
  have c1 : (0 : Int) ≤ (q : Int) + limit ncol smin := by omega
  have c2 : (q : Int) + limit ncol smax ≤ (ncol : Int) - 1 := by omega
  have c1' : ((0 : Int) : K) ≤ (((q : Int) + limit ncol smin : Int) : K) := by
    exact_mod_cast c1
  have c2' : (((q : Int) + limit ncol smax : Int) : K) ≤ (((ncol : Int) - 1 : Int) : K) := by
    exact_mod_cast c2
  push_cast at c1' c2' h1 h2 ⊢
  refine ⟨by linarith, by linarith, fun hs => ?_, fun hs => ?_⟩
  · have := (a3 hs).1; linarith
  · have := (b4 hs).1; linarith

/-- **C47** (coarse window, whole numbers).  For whole `smin` and `smax` the candidates are all
multiples of one half in the window clipped to the detector. -/
theorem coarse_window_int (ncol : Nat) (hn : 0 < ncol) (hn2 : ncol ≤ 65536) (smin smax : Int) (c : K) :
    c ∈ coarseList ncol (smin : K) smax ↔ ∃ k : Int, c = k / 2 ∧
      2 * (((ncol / 2 : Nat) : Int) + max (min smin (half ncol)) (-half ncol)) ≤ k ∧
      k ≤ 2 * (((ncol / 2 : Nat) : Int) + max (min smax (half ncol)) (-half ncol)) := by
  rw [mem_coarseList, limit_int ncol hn hn2, limit_int ncol hn hn2]
  generalize max (min smin (half ncol)) (-half ncol) = a
  generalize max (min smax (half ncol)) (-half ncol) = b
  generalize ncol / 2 = q
  have cast : ∀ k z : Int, ((k : K) / 2 ≤ (q : K) + z ↔
      k ≤ 2 * ((q : Int) + z)) ∧ ((q : K) + z ≤ (k : K) / 2 ↔
      2 * ((q : Int) + z) ≤ k) := by
    intro k z
    constructor
    · rw [div_le_iff₀ (by norm_num), ← Int.cast_le (R := K)]
      push_cast
      rw [mul_comm]
    · rw [le_div_iff₀ (by norm_num), ← Int.cast_le (R := K)]
      push_cast
      rw [mul_comm]
  constructor
  · rintro ⟨⟨k, rfl⟩, h1, h2⟩
    exact ⟨k, rfl, (cast k a).2.1 h1, (cast k b).1.1 h2⟩
  · rintro ⟨k, rfl, h1, h2⟩
    exact ⟨⟨k, rfl⟩, (cast k a).2.2 h1, (cast k b).1.2 h2⟩

/-- **C47** (refuted).  For data above 4·10⁶ pixels the limits are divided by 4 and truncated: with
`smin = 10` the candidate 2 of the reduced data, 8 pixels from the centre, is tried. -/
theorem coarse_window_leaves :
    (((2500 / 4 / 2 : Nat) : ℚ) + 2) ∈ coarseList (2500 / 4) ((10 : ℚ) / 4) (50 / 4) ∧
    4 * ((((2500 / 4 / 2 : Nat) : ℚ) + 2) - ((2500 / 4 / 2 : Nat) : ℚ)) < 10 := by
  constructor
  · rw [mem_coarseList]
    have h1 : limit (2500 / 4) ((10 : ℚ) / 4) = 2 := by decide +kernel
    have h2 : limit (2500 / 4) ((50 : ℚ) / 4) = 12 := by decide +kernel
    rw [h1, h2]
    refine ⟨⟨628, ?_⟩, ?_, ?_⟩ <;> norm_num
  · norm_num

/-- **C47** (coarse search).  If the window is empty the search raises `ValueError`; otherwise it
returns a candidate with the least metric of all candidates. -/
theorem search_coarse (metric : K → K) (ncol : Nat) (smin smax : K) :
    (limit ncol smax < limit ncol smin ∧ searchCoarse metric ncol smin smax = .error .value) ∨
    ∃ c ∈ coarseList ncol smin smax, searchCoarse metric ncol smin smax = .ok c ∧
      ∀ c' ∈ coarseList ncol smin smax, metric (shiftOf ncol c) ≤ metric (shiftOf ncol c') := by
  rcases best_spec (coarseList ncol smin smax) (fun cor => metric (shiftOf ncol cor))
    (searchCoarse metric ncol smin smax) rfl with ⟨h1, h2⟩ | h
  · left
    refine ⟨?_, h2⟩
    by_contra hle
    have : (((ncol / 2 : Nat) : K) + limit ncol smin) ∈ coarseList ncol smin smax := by
      rw [mem_coarseList]
      refine ⟨⟨2 * (((ncol / 2 : Nat) : Int) + limit ncol smin), ?_⟩, le_rfl, ?_⟩
      · generalize ncol / 2 = q
        push_cast
        ring
      have : (limit ncol smin : K) ≤ limit ncol smax := by exact_mod_cast not_lt.1 hle
      linarith
    rw [h1] at this
    cases this
  · exact Or.inr h

/-! ### Fine search -/

theorem fine_params (ncol : Nat) (hn : 2 ≤ ncol) (srad step : K) :
    0 < fineRad ncol srad ∧ 2 * fineRad ncol srad ≤ (ncol : K) - 1 ∧
    0 < fineStep ncol srad step ∧ fineStep ncol srad step ≤ fineRad ncol srad := by
  have hn' : (2 : K) ≤ ncol := by exact_mod_cast hn
  have h1 : fineRad ncol srad ≤ (ncol : K) / 4 := min_le_right _ _
  have h2 : (1 / 2 : K) ≤ fineRad ncol srad :=
    le_min ((by norm_num : (1 / 2 : K) ≤ 1).trans (le_max_right _ _)) (by linarith)
  have h3 : fineStep ncol srad step ≤ fineRad ncol srad := min_le_right _ _
  have h4 : (1 / 10 : K) ≤ fineStep ncol srad step :=
    le_min (le_max_right _ _) (by linarith [(by norm_num : (1 / 10 : K) ≤ 1 / 2)])
  refine ⟨by linarith, by linarith, ?_, h3⟩
  have : (0 : K) < 1 / 10 := by norm_num
  linarith

/-- **C47** (fine candidates).  The fine candidates start at the lower end of the fine window and
advance by the step; the last may lie beyond the upper end by less than one step. -/
theorem fine_window_partial (ncol : Nat) (hn : 2 ≤ ncol) (srad step init c : K)
    (h : c ∈ fineList ncol srad step init) :
    (∃ i : Nat, c = fineCen ncol srad init - fineRad ncol srad + i * fineStep ncol srad step) ∧
    fineCen ncol srad init - fineRad ncol srad ≤ c ∧
    c < fineCen ncol srad init + fineRad ncol srad + fineStep ncol srad step ∧
    0 ≤ c ∧ c < (ncol : K) - 1 + fineStep ncol srad step := by
  obtain ⟨p1, p2, p3, p4⟩ := fine_params ncol hn srad step
  unfold fineList at h
  rw [List.mem_map] at h
  obtain ⟨x, hx, rfl⟩ := h
  rw [mem_arange _ _ _ p3] at hx
  obtain ⟨i, rfl, hlt⟩ := hx
  have hi : (0 : K) ≤ i * fineStep ncol srad step := mul_nonneg (Nat.cast_nonneg i) p3.le
  have c1 : fineRad ncol srad ≤ fineCen ncol srad init :=
    le_min (le_max_right _ _) (by linarith)
  have c2 : fineCen ncol srad init ≤ (ncol : K) - fineRad ncol srad - 1 := min_le_right _ _
  exact ⟨⟨i, by ring⟩, by linarith, by linarith, by linarith, by linarith⟩

/-- If the step divides the window the candidates stay inside it, and on the detector. -/
theorem fine_window_divides (ncol : Nat) (hn : 2 ≤ ncol) (srad step init c : K) (k : Nat)
    (hk : 2 * fineRad ncol srad = k * fineStep ncol srad step)
    (h : c ∈ fineList ncol srad step init) :
    c ≤ fineCen ncol srad init + fineRad ncol srad ∧ c ≤ (ncol : K) - 1 := by
  obtain ⟨p1, p2, p3, p4⟩ := fine_params ncol hn srad step
  obtain ⟨⟨i, hi⟩, _, h3, _⟩ := fine_window_partial ncol hn srad step init c h
  have h4 : (i : K) * fineStep ncol srad step < (k + 1) * fineStep ncol srad step := by linarith
  have h5 : (i : K) < k + 1 := lt_of_mul_lt_mul_right h4 p3.le
  have h6 : i < k + 1 := by exact_mod_cast h5
  have h7 : (i : K) ≤ k := by exact_mod_cast Nat.lt_succ_iff.1 h6
  have h8 : (i : K) * fineStep ncol srad step ≤ k * fineStep ncol srad step :=
    mul_le_mul_of_nonneg_right h7 p3.le
  have c2 : fineCen ncol srad init ≤ (ncol : K) - fineRad ncol srad - 1 := min_le_right _ _
  have : c ≤ fineCen ncol srad init + fineRad ncol srad := by linarith
  exact ⟨this, by linarith⟩

/-- **C47** (refuted).  With radius 1 and step 3/4 the candidate 1.25 pixels above the coarse result
is tried; at the upper end it lies outside the detector. -/
theorem fine_window_leaves :
    ((98 + 5 / 4 : ℚ)) ∈ fineList 100 (1 : ℚ) (3 / 4) 99 ∧ ((100 : ℚ) - 1 < 98 + 5 / 4) := by
  constructor
  · have : fineList 100 (1 : ℚ) (3 / 4) 99 = [97, 97 + 3 / 4, 97 + 6 / 4, 98 + 5 / 4] := by
      decide +kernel
    rw [this]
    simp
  · norm_num

/-- The lower end of the fine window is always tried, so the search never fails. -/
theorem fineList_ne (ncol : Nat) (hn : 2 ≤ ncol) (srad step init : K) :
    fineCen ncol srad init - fineRad ncol srad ∈ fineList ncol srad step init := by
  obtain ⟨p1, p2, p3, p4⟩ := fine_params ncol hn srad step
  unfold fineList
  rw [List.mem_map]
  refine ⟨-fineRad ncol srad, ?_, by ring⟩
  rw [mem_arange _ _ _ p3]
  exact ⟨0, by simp, by linarith⟩

/-- The centre of the fine window itself is a candidate if the step divides the radius. -/
theorem fineCen_mem (ncol : Nat) (hn : 2 ≤ ncol) (srad step init : K) (k : Nat)
    (hk : fineRad ncol srad = k * fineStep ncol srad step) :
    fineCen ncol srad init ∈ fineList ncol srad step init := by
  obtain ⟨p1, p2, p3, p4⟩ := fine_params ncol hn srad step
  unfold fineList
  rw [List.mem_map]
  refine ⟨0, ?_, by ring⟩
  rw [mem_arange _ _ _ p3]
  exact ⟨k, by linarith, by linarith⟩

/-- **C47** (fine search).  The fine search always returns a candidate with the least metric. -/
theorem search_fine (metric : K → K) (ncol : Nat) (hn : 2 ≤ ncol) (srad step init : K) :
    ∃ c ∈ fineList ncol srad step init, searchFine metric ncol srad step init = .ok c ∧
      ∀ c' ∈ fineList ncol srad step init, metric (shiftOf ncol c) ≤ metric (shiftOf ncol c') := by
  rcases best_spec (fineList ncol srad step init) (fun cor => metric (shiftOf ncol cor))
    (searchFine metric ncol srad step init) rfl with ⟨h1, _⟩ | h
  · have := fineList_ne ncol hn srad step init
    rw [h1] at this
    cases this
  · exact h

/-! ### What the metric compares -/

/-- **C47** (mirror).  For a whole shift, which is what every coarse candidate gives, the sinogram
that is compared holds in column `c` the column mirrored about the candidate centre; columns whose
mirror image is outside the detector come from the reversed sinogram.  Nothing wraps around. -/
theorem shifted_mirror {α : Type} (nrow ncol : Nat) (hn : 0 < ncol) (k : Int)
    (spline : K → (Nat → Nat → α) → Nat → Nat → α) (sino : Nat → Nat → α) (r c : Nat)
    (hc : c < ncol) :
    shifted ncol (shiftOf ncol ((k : K) / 2)) spline (fliplr ncol sino) (flipud nrow sino) r c
      = if 0 ≤ k - c ∧ k - c < ncol then sino r (k - c).toNat else sino (nrow - 1 - r) c := by
  have hs : shiftOf ncol ((k : K) / 2) = ((k - (ncol - 1) : Int) : K) := by
    unfold shiftOf cenFliplr
    push_cast
    ring
  unfold shifted
  rw [hs, Int.floor_intCast, sub_self, abs_zero, if_pos rfl]
  generalize hS : k - ((ncol : Int) - 1) = s
  have hk : k = s + ncol - 1 := by omega
  subst hk
  unfold shiftInt roll fliplr flipud pyBound
  rcases le_or_gt 0 s with h | h
  · rw [if_pos h, if_neg (not_lt.2 h)]
    by_cases h1 : (c : Int) < min s ncol
    · rw [if_pos h1, if_neg (by omega)]
    · rw [if_neg h1]
      have hsc : s ≤ c := by omega
      rw [Int.emod_eq_of_lt (by omega) (by omega), if_pos (by omega)]
      congr 1
      omega
  · rw [if_neg (not_le.2 h), if_pos h]
    by_cases h1 : max 0 (s + ncol) ≤ (c : Int)
    · rw [if_pos h1, if_neg (by omega)]
    · rw [if_neg h1]
      rw [Int.emod_eq_of_lt (by omega) (by omega), if_pos (by omega)]
      congr 1
      omega

/-- **C47** The metrics are computed one candidate at a time; for every number of cores and
schedule entry `i` is the metric of shift `i`. -/
theorem metrics_distributed (cpu : Nat) (debug : Bool) (n : Nat) (ncore : Option Nat)
    (metric : K → K) (m m' : Mproc.Cell → K) (res : Mproc.Buf)
    (h : Mproc.DistributeJobs cpu debug
      ⟨n, [0], none, fun _ => false,
        ⟨fun rows => rows, fun rows => some (rows.map fun row => metric (row.headD 0))⟩, ncore,
        some 1, fun _ => false⟩ (fun _ => false) m m' res) :
    ∀ i < n, m' (res, i) = metric (m (.caller 0, i)) := by
  intro i hi
  exact Mproc.distribute_jobs_schedule_independent (g := fun row => metric (row.headD 0))
    ⟨fun _ => rfl, fun _ => rfl⟩ h i hi

/-! ### The mask -/

/-- **C47** (mask).  For at least two projections and three columns the mask selects the wedge
around the middle column without the middle rows and columns. -/
theorem mask_spec_partial (nrow ncol : Nat) (hr : 2 ≤ nrow) (hc : 3 ≤ ncol) (radius : ℝ) (drop : Int)
    (hd : 0 ≤ drop) (i c : Nat) (hcc : c < ncol) :
    createMask (2 * nrow) ncol radius drop i c
      = if |(c : Int) - cenIdx ncol| ≤ |wedge (2 * nrow) ncol radius i| ∧
          dropRows (2 * nrow) drop < |(i : Int) - cenIdx (2 * nrow)| ∧
          1 < |(c : Int) - cenIdx ncol| then 1 else 0 := by
  unfold createMask
  generalize wedge (2 * nrow) ncol radius i = pos
  dsimp only
  have d1 : 0 ≤ dropRows (2 * nrow) drop := by unfold dropRows; omega
  have d2 : dropRows (2 * nrow) drop ≤ cenIdx (2 * nrow) := by unfold dropRows cenIdx; omega
  have d3 : cenIdx (2 * nrow) + dropRows (2 * nrow) drop + 1 ≤ (2 * nrow : Nat) := by
    unfold dropRows cenIdx; omega
  have c1 : 1 ≤ cenIdx ncol := by unfold cenIdx; omega
  have c2 : cenIdx ncol + 2 ≤ ncol := by unfold cenIdx; omega
  generalize dropRows (2 * nrow) drop = d at *
  generalize cenIdx (2 * nrow) = cr at *
  generalize cenIdx ncol = cc at *
  generalize 2 * nrow = N at *
  have e1 : pyBound ncol (cc - 1) = cc - 1 := by unfold pyBound; split_ifs <;> omega
  have e2 : pyBound ncol (cc + 2) = cc + 2 := by unfold pyBound; split_ifs <;> omega
  have e3 : pyBound N (cr - d) = cr - d := by unfold pyBound; split_ifs <;> omega
  have e4 : pyBound N (cr + d + 1) = cr + d + 1 := by unfold pyBound; split_ifs <;> omega
  rw [e1, e2, e3, e4]
  have e5 : pyBound ncol (min (max (min (-pos + cc) (pos + cc)) 0) ((ncol : Int) - 1))
      = min (max (min (-pos + cc) (pos + cc)) 0) ((ncol : Int) - 1) := by
    unfold pyBound; split_ifs <;> omega
  have e6 : pyBound ncol (min (max (max (-pos + cc) (pos + cc)) 0) ((ncol : Int) - 1) + 1)
      = min (max (max (-pos + cc) (pos + cc)) 0) ((ncol : Int) - 1) + 1 := by
    unfold pyBound; split_ifs <;> omega
  rw [e5, e6]
  have a1 : |(c : Int) - cc| = max ((c : Int) - cc) (cc - c) := by
    rw [abs_eq_max_neg]; congr 1; omega
  have a2 : |pos| = max pos (-pos) := abs_eq_max_neg
  have a3 : |(i : Int) - cr| = max ((i : Int) - cr) (cr - i) := by
    rw [abs_eq_max_neg]; congr 1; omega
  rw [a1, a2, a3]
  by_cases h1 : cc - 1 ≤ (c : Int) ∧ (c : Int) < cc + 2
  · rw [if_pos h1, if_neg (by omega)]
  · rw [if_neg h1]
    by_cases h2 : cr - d ≤ (i : Int) ∧ (i : Int) < cr + d + 1
    · rw [if_pos h2, if_neg (by omega)]
    · rw [if_neg h2]
      congr 1
      apply propext
      omega

/-- The metric is never negative. -/
theorem metric_nonneg (nrow ncol : Nat) (ratio : ℝ) (drop : Int)
    (spline : ℝ → (Nat → Nat → ℝ) → Nat → Nat → ℝ) (sino : Nat → Nat → ℝ) (shift : ℝ) :
    0 ≤ metric nrow ncol ratio drop spline sino shift := by
  unfold metric spectrumMean
  refine div_nonneg (Finset.sum_nonneg fun r _ => Finset.sum_nonneg fun c _ =>
    mul_nonneg (norm_nonneg _) ?_) (by positivity)
  unfold createMask
  dsimp only
  split_ifs <;> norm_num

/-- The middle row is kept and the other dropped when there is a single projection. -/
theorem mask_one_projection : dropRows 2 20 = 1 ∧ cenIdx 2 = 0 ∧
    pyBound 2 (cenIdx 2 - dropRows 2 20) = 1 := by decide

/-! ### The whole function -/

/-- **C47**.  `find_center_vo` on a detector of 2 to 65536 columns: if a sinogram can be selected
and the window is not empty, the result is on the detector up to one step, is a minimiser of the
metric over the fine candidates, and the centre of the fine window is the coarse minimiser (times 4
for large data), clipped. -/
theorem find_center_vo_partial (gauss1 gauss2 down : (Nat → Nat → ℝ) → Nat → Nat → ℝ)
    (spline : ℝ → (Nat → Nat → ℝ) → Nat → Nat → ℝ) (twoD : Bool) (depth height width : Nat)
    (ind : Option Int) (smin smax srad step ratio : ℝ) (drop : Int)
    (tomo : Nat → Nat → Nat → ℝ) (hw : 2 ≤ width) (c : ℝ)
    (h : findCenterVo gauss1 gauss2 down spline twoD depth height width ind smin smax srad step ratio
      drop tomo = .ok c) :
    ∃ t init f n, pickSino twoD height ind tomo = .ok t ∧
      (f = (if depth * width > 4000000 then 4 else 1)) ∧ n = width / f ∧
      init ∈ coarseList n (smin / f) (smax / f) ∧
      (∀ c' ∈ coarseList n (smin / f) (smax / f),
        metric depth n ratio drop spline ((if depth * width > 4000000 then down else id) (gauss1 t))
          (shiftOf n init)
        ≤ metric depth n ratio drop spline
          ((if depth * width > 4000000 then down else id) (gauss1 t)) (shiftOf n c')) ∧
      c ∈ fineList width srad step (init * f) ∧
      (∀ c' ∈ fineList width srad step (init * f),
        metric depth width ratio drop spline (gauss2 t) (shiftOf width c)
        ≤ metric depth width ratio drop spline (gauss2 t) (shiftOf width c')) ∧
      0 ≤ c ∧ c < (width : ℝ) - 1 + fineStep width srad step := by
  unfold findCenterVo at h
  cases ht : pickSino twoD height ind tomo with
  | error e => rw [ht] at h; cases h
  | ok t =>
    rw [ht] at h
    by_cases hbig : depth * width > 4000000
    · simp only [hbig, if_true] at h ⊢
      have h' : (searchCoarse (metric depth (width / 4) ratio drop spline (down (gauss1 t)))
          (width / 4) (smin / 4) (smax / 4) >>= fun init =>
          searchFine (metric depth width ratio drop spline (gauss2 t)) width srad step (init * 4))
          = .ok c := h
      rcases search_coarse (metric depth (width / 4) ratio drop spline (down (gauss1 t)))
        (width / 4) (smin / 4) (smax / 4) with ⟨_, he⟩ | ⟨init, hi1, hi2, hi3⟩
      · rw [he] at h'; cases h'
      · rw [hi2] at h'
        have h'' : searchFine (metric depth width ratio drop spline (gauss2 t)) width srad step
          (init * 4) = .ok c := h'
        obtain ⟨c2, hc1, hc2, hc3⟩ := search_fine (metric depth width ratio drop spline (gauss2 t))
          width hw srad step (init * 4)
        rw [hc2] at h''
        injection h'' with h''
        subst h''
        obtain ⟨_, _, _, w4, w5⟩ := fine_window_partial width hw srad step _ _ hc1
        exact ⟨t, init, 4, width / 4, rfl, rfl, rfl, by exact_mod_cast hi1,
          by exact_mod_cast hi3, by exact_mod_cast hc1, by exact_mod_cast hc3, w4, w5⟩
    · simp only [hbig, if_false] at h ⊢
      have h' : (searchCoarse (metric depth width ratio drop spline (gauss1 t)) width smin smax
          >>= fun init =>
          searchFine (metric depth width ratio drop spline (gauss2 t)) width srad step init)
          = .ok c := h
      rcases search_coarse (metric depth width ratio drop spline (gauss1 t)) width smin smax with
        ⟨_, he⟩ | ⟨init, hi1, hi2, hi3⟩
      · rw [he] at h'; cases h'
      · rw [hi2] at h'
        have h'' : searchFine (metric depth width ratio drop spline (gauss2 t)) width srad step
          init = .ok c := h'
        obtain ⟨c2, hc1, hc2, hc3⟩ := search_fine (metric depth width ratio drop spline (gauss2 t))
          width hw srad step init
        rw [hc2] at h''
        injection h'' with h''
        subst h''
        obtain ⟨_, _, _, w4, w5⟩ := fine_window_partial width hw srad step _ _ hc1
        refine ⟨t, init, 1, width, rfl, rfl, (Nat.div_one _).symm, ?_, ?_, ?_, ?_, w4, w5⟩
        · simpa using hi1
        · simpa using hi3
        · simpa using hc1
        · simpa using hc3

/-- The averaged sinogram is the mean of exactly ten slices of the data. -/
theorem pick_ten (height : Nat) (h : 10 < height) (tomo : Nat → Nat → Nat → ℝ) (p c : Nat) :
    ∃ t, pickSino false height none tomo = .ok t ∧ height / 2 + 5 ≤ height ∧
      t p c = (∑ j ∈ Finset.range 10, tomo p (height / 2 - 5 + j) c) / 10 := by
  refine ⟨_, by unfold pickSino; rw [if_neg (by simp), if_pos h], by omega, ?_⟩
  have e1 : (pyBound height (((height / 2 : Nat) : Int) - 5)).toNat = height / 2 - 5 := by
    unfold pyBound; split_ifs <;> omega
  have e2 : (pyBound height (((height / 2 : Nat) : Int) + 5)).toNat = height / 2 - 5 + 10 := by
    unfold pyBound; split_ifs <;> omega
  rw [e1, e2, Finset.sum_Ico_eq_sum_range]
  norm_num

/-- Defaults on a detector of 2048 columns: the window is not empty, the step divides the window. -/
example : limit (K := ℚ) 2048 (-50) = -50 ∧ limit (K := ℚ) 2048 50 = 50 ∧
    2 * fineRad (K := ℚ) 2048 6 = (48 : Nat) * fineStep 2048 6 (1 / 4) := by decide +kernel

/-- A small search: the coarse minimum of a metric with its least value at shift 3. -/
example : searchCoarse (K := ℚ) (fun s => (s - 3) ^ 2) 8 (-2) 2 = .ok 5 := by decide +kernel

end Tomopy.Center
