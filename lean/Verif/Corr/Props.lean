import Verif.Corr.Model
import Verif.Mproc.Props
import Mathlib.Algebra.Order.Ring.Rat
import Mathlib.Algebra.Order.Field.Rat
import Mathlib.Tactic.Ring
import Mathlib.Tactic.Linarith
import Mathlib.Tactic.FieldSimp

/-! Theorems about the clean-up filters of corr.py (C21-C23, C25, C28, C58). -/
set_option linter.unusedSectionVars false

namespace Tomopy.Corr
open Tomopy.Num

section Order
variable {K : Type} [LinearOrder K]

/-! ### C22 -/

theorem vlt_some (a b : K) : vlt (some a) (some b) = decide (a < b) := rfl

theorem npMax_some (xs : List K) (h : xs ≠ []) :
    ∃ m, npMax (xs.map some) = .ok (some m) ∧ m ∈ xs ∧ ∀ x ∈ xs, x ≤ m := by
  unfold npMax
  rw [if_neg (by simpa using h), if_neg (by simp), List.filterMap_map]
  have e : xs.filterMap (id ∘ some) = xs := by
    rw [show ((id ∘ some : K → Option K)) = some from rfl]; simp
  rw [e]
  cases hm : xs.max? with
  | none => exact absurd (List.max?_eq_none_iff.1 hm) h
  | some m =>
    obtain ⟨h1, h2⟩ := List.max?_eq_some_iff.1 hm
    exact ⟨m, rfl, h1, h2⟩

theorem npMin_some (xs : List K) (h : xs ≠ []) :
    ∃ m, npMin (xs.map some) = .ok (some m) ∧ m ∈ xs ∧ ∀ x ∈ xs, m ≤ x := by
  unfold npMin
  rw [if_neg (by simpa using h), if_neg (by simp), List.filterMap_map]
  have e : xs.filterMap (id ∘ some) = xs := by
    rw [show ((id ∘ some : K → Option K)) = some from rfl]; simp
  rw [e]
  cases hm : xs.min? with
  | none => exact absurd (List.min?_eq_none_iff.1 hm) h
  | some m =>
    obtain ⟨h1, h2⟩ := List.min?_eq_some_iff.1 hm
    exact ⟨m, rfl, h1, h2⟩

theorem adjust_two (lo hi : K) (xs : List K) (h : xs ≠ []) :
    adjustRange (some lo) (some hi) (xs.map some)
      = .ok ((xs.map fun x => max lo (min x hi)).map some) := by
  obtain ⟨mx, e1, _, hmx⟩ := npMax_some xs h
  unfold adjustRange
  simp only [bind, Except.bind, pure, Except.pure, e1]
  have e2 : (if vlt (some hi) (some mx) = true then
      (xs.map some).map (fun v => if vlt (some hi) v = true then some hi else v)
      else xs.map some) = (xs.map fun x => min x hi).map some := by
    rw [vlt_some]
    split
    · rw [List.map_map, List.map_map]
      refine List.map_congr_left fun x _ => ?_
      simp only [Function.comp, vlt_some, decide_eq_true_eq]
      split
      · rename_i hx; rw [min_eq_right hx.le]
      · rename_i hx; rw [min_eq_left (not_lt.1 hx)]
    · rename_i hx
      simp only [decide_eq_true_eq, not_lt] at hx
      congr 1
      conv_lhs => rw [← List.map_id xs]
      refine List.map_congr_left fun x hxm => ?_
      exact (min_eq_left (le_trans (hmx x hxm) hx)).symm
  rw [e2]
  obtain ⟨mn, e3, _, hmn⟩ := npMin_some (xs.map fun x => min x hi) (by simpa using h)
  simp only [e3]
  rw [vlt_some]
  congr 1
  split
  · rw [List.map_map, List.map_map, List.map_map]
    refine List.map_congr_left fun x _ => ?_
    simp only [Function.comp, vlt_some, decide_eq_true_eq]
    split
    · rename_i hx; rw [max_eq_left hx.le]
    · rename_i hx; rw [max_eq_right (not_lt.1 hx)]
  · rename_i hx
    simp only [decide_eq_true_eq, not_lt] at hx
    congr 1
    refine List.map_congr_left fun x hxm => ?_
    have := hmn _ (List.mem_map_of_mem hxm)
    exact (max_eq_right (le_trans hx this)).symm

/-- **C22 (partial)** For NaN-free arrays and `dmin ≤ dmax`, `adjust_range` clamps every value
into `[dmin, dmax]`, keeps values that were inside, and is idempotent. -/
theorem adjust_range_partial (lo hi : K) (hlh : lo ≤ hi) (xs : List K) (h : xs ≠ []) :
    ∃ ys : List K, adjustRange (some lo) (some hi) (xs.map some) = .ok (ys.map some) ∧
      ys.length = xs.length ∧
      (∀ y ∈ ys, lo ≤ y ∧ y ≤ hi) ∧
      (∀ (i : Nat) (x : K), xs[i]? = some x →
        (lo ≤ x → x ≤ hi → ys[i]? = some x) ∧ (x < lo → ys[i]? = some lo) ∧
        (hi < x → ys[i]? = some hi)) ∧
      adjustRange (some lo) (some hi) (ys.map some) = .ok (ys.map some) := by
  refine ⟨_, adjust_two lo hi xs h, by simp, ?_, ?_, ?_⟩
  · intro y hy
    obtain ⟨x, _, rfl⟩ := List.mem_map.1 hy
    exact ⟨le_max_left _ _, max_le hlh (min_le_right _ _)⟩
  · intro i x hx
    rw [List.getElem?_map, hx, Option.map_some]
    refine ⟨fun h1 h2 => ?_, fun h1 => ?_, fun h1 => ?_⟩
    · rw [min_eq_left h2, max_eq_right h1]
    · rw [min_eq_left (le_trans h1.le hlh), max_eq_left h1.le]
    · rw [min_eq_right h1.le, max_eq_right hlh]
  · rw [adjust_two lo hi _ (by simpa using h)]
    refine congrArg (fun l => Except.ok (List.map some l)) ?_
    rw [List.map_map]
    refine List.map_congr_left fun x _ => ?_
    simp only [Function.comp]
    rw [min_eq_left (max_le hlh (min_le_right x hi)), max_eq_right (le_max_left _ _)]

/-- **C22** Omitted bounds do not change anything on their side: only `dmax` given. -/
theorem adjust_range_default (hi : K) (xs : List K) (h : xs ≠ []) :
    adjustRange none none (xs.map some) = .ok (xs.map some) ∧
    ∃ ys : List K, adjustRange none (some hi) (xs.map some) = .ok (ys.map some) ∧
      ((∀ x ∈ xs, hi ≤ x) ∨ (∃ x ∈ xs, x ≤ hi)) ∧
      ((∃ x ∈ xs, x ≤ hi) → ys = xs.map fun x => min x hi) := by
  obtain ⟨mx, e1, hm1, hmx⟩ := npMax_some xs h
  obtain ⟨mn, e3, hm3, hmn⟩ := npMin_some xs h
  constructor
  · unfold adjustRange
    simp only [bind, Except.bind, pure, Except.pure, e1, e3, vlt_some, lt_irrefl, decide_false,
      Bool.false_eq_true, if_false]
  · have hor : (∀ x ∈ xs, hi ≤ x) ∨ (∃ x ∈ xs, x ≤ hi) := by
      by_cases hc : ∃ x ∈ xs, x ≤ hi
      · exact Or.inr hc
      · push Not at hc
        exact Or.inl fun x hx => (hc x hx).le
    by_cases hc : mn ≤ hi
    · have := adjust_two mn hi xs h
      have e : adjustRange none (some hi) (xs.map some)
          = adjustRange (some mn) (some hi) (xs.map some) := by
        unfold adjustRange
        simp only [bind, Except.bind, e3]
      rw [e, this]
      refine ⟨_, rfl, hor, fun _ => ?_⟩
      refine List.map_congr_left fun x hx => ?_
      exact max_eq_right (le_min (hmn x hx) hc)
    · push Not at hc
      unfold adjustRange
      simp only [bind, Except.bind, pure, Except.pure, e1, e3]
      have hlt : vlt (some hi) (some mx) = true := by
        rw [vlt_some, decide_eq_true_eq]
        exact lt_of_lt_of_le hc (hmn mx hm1)
      rw [if_pos hlt]
      have e2 : (xs.map some).map (fun v => if vlt (some hi) v = true then some hi else v)
          = (xs.map fun _ => hi).map some := by
        rw [List.map_map, List.map_map]
        refine List.map_congr_left fun x hx => ?_
        simp only [Function.comp, vlt_some, decide_eq_true_eq]
        rw [if_pos (lt_of_lt_of_le hc (hmn x hx))]
      rw [e2]
      obtain ⟨m2, e4, hm4, _⟩ := npMin_some (xs.map fun _ => hi) (by simpa using h)
      simp only [e4]
      have hne : ¬ ∃ x ∈ xs, x ≤ hi := by
        rintro ⟨x, hx, hxh⟩
        exact absurd (le_trans (hmn x hx) hxh) (not_le.2 hc)
      split
      · refine ⟨(xs.map fun _ => hi).map fun x => if x < mn then mn else x, ?_, hor,
          fun hx => absurd hx hne⟩
        congr 1
        rw [List.map_map, List.map_map, List.map_map, List.map_map]
        refine List.map_congr_left fun x _ => ?_
        simp only [Function.comp, vlt_some, decide_eq_true_eq]
        split <;> rfl
      · exact ⟨_, rfl, hor, fun hx => absurd hx hne⟩

example : adjustRange (some 1) (some 3) ([0, 2, 5, 3].map (some : Int → _))
    = .ok ([1, 2, 3, 3].map some) := by decide +kernel

/-- **C22 (refutation)** One NaN switches the clamping off: whatever the bounds, an array with a
NaN comes back unchanged, out-of-range values included. -/
theorem adjust_range_nan (lo hi : K) (l : List (Option K)) (h : none ∈ l) :
    adjustRange (some lo) (some hi) l = .ok l := by
  have hne : l ≠ [] := fun e => by rw [e] at h; cases h
  have hany : l.any Option.isNone = true := by
    rw [List.any_eq_true]; exact ⟨none, h, rfl⟩
  have e1 : npMax l = .ok none := by
    unfold npMax; rw [if_neg hne, if_pos hany]
  have e2 : npMin l = .ok none := by
    unfold npMin; rw [if_neg hne, if_pos hany]
  unfold adjustRange
  simp only [bind, Except.bind, pure, Except.pure, e1, e2, vlt, Bool.false_eq_true, if_false]

example : adjustRange (some 0) (some 1) [none, some (7 : Int)] = .ok [none, some 7] :=
  adjust_range_nan 0 1 _ (by simp)

/-- **C22** `remove_nan` changes exactly the NaN entries, to `val`; for a number `val` the result
has no NaN, and the function is idempotent for every `val`. -/
theorem remove_nan_spec (val : Option K) (l : List (Option K)) :
    (removeNan val l).length = l.length ∧
    (∀ i : Nat, l[i]? = some none → (removeNan val l)[i]? = some val) ∧
    (∀ (i : Nat) (x : K), l[i]? = some (some x) → (removeNan val l)[i]? = some (some x)) ∧
    (val ≠ none → none ∉ removeNan val l) ∧
    removeNan val (removeNan val l) = removeNan val l := by
  unfold removeNan
  refine ⟨by simp, ?_, ?_, ?_, ?_⟩
  · intro i h; simp [h]
  · intro i x h; simp [h]
  · intro hv hmem
    obtain ⟨a, _, ha⟩ := List.mem_map.1 hmem
    cases a with
    | none => exact hv ha
    | some x => cases ha
  · rw [List.map_map]
    refine List.map_congr_left fun a _ => ?_
    cases a with
    | none => cases val <;> rfl
    | some x => rfl

/-- **C22** `remove_neg` changes exactly the negative entries, to `val` (NaN stays); for
`val ≥ 0` no negative entry is left; idempotent for every `val`. -/
theorem remove_neg_spec [Zero K] (val : Option K) (l : List (Option K)) :
    (removeNeg val l).length = l.length ∧
    (∀ (i : Nat) (x : K), l[i]? = some (some x) → x < 0 → (removeNeg val l)[i]? = some val) ∧
    (∀ (i : Nat) (x : K), l[i]? = some (some x) → 0 ≤ x → (removeNeg val l)[i]? = some (some x)) ∧
    (∀ i : Nat, l[i]? = some none → (removeNeg val l)[i]? = some none) ∧
    (∀ v, val = some v → 0 ≤ v → ∀ x, some x ∈ removeNeg val l → 0 ≤ x) ∧
    removeNeg val (removeNeg val l) = removeNeg val l := by
  unfold removeNeg
  refine ⟨by simp, ?_, ?_, ?_, ?_, ?_⟩
  · intro i x h hx; simp [h, vlt, hx]
  · intro i x h hx; simp [h, vlt, not_lt.2 hx]
  · intro i h; simp [h, vlt]
  · intro v hv hv0 x hmem
    obtain ⟨a, _, ha⟩ := List.mem_map.1 hmem
    split at ha
    · rw [hv] at ha; cases ha; exact hv0
    · rename_i hn
      rw [ha] at hn
      simpa [vlt] using hn
  · rw [List.map_map]
    refine List.map_congr_left fun a _ => ?_
    simp only [Function.comp]
    by_cases h1 : vlt a (some 0) = true
    · rw [if_pos h1, ite_self]
    · rw [if_neg h1, if_neg h1]

example : removeNeg (some (9 : Int)) [some (-1), none, some 4] = [some 9, none, some 4] := by
  decide

end Order

section Field
variable {K : Type} [LinearOrder K] [Field K] [IsStrictOrderedRing K]

/-! ### C21 -/

/-- Specification: all finite values of the h×w projection at distance at most `size/2` of
`(x, y)` in both coordinates (selected from the whole projection). -/
def nearFinite (h w size : Nat) (p : Proj K) (x y : Nat) : List K :=
  (List.range h).flatMap fun a => (List.range w).filterMap fun b =>
    if (a ≤ x + size / 2 ∧ x ≤ a + size / 2) ∧ (b ≤ y + size / 2 ∧ y ≤ b + size / 2) then p a b
    else none

theorem flatMap_ite_range {β : Type} (n lo hi : Nat) (f : Nat → List β) :
    ((List.range n).flatMap fun a => if lo ≤ a ∧ a < hi then f a else [])
      = (List.range' lo (min n hi - lo)).flatMap f := by
  induction n with
  | zero => simp
  | succ n ih =>
    rw [List.range_succ, List.flatMap_append, ih]
    simp only [List.flatMap_cons, List.flatMap_nil, List.append_nil]
    by_cases h : lo ≤ n ∧ n < hi
    · rw [if_pos h, show min (n + 1) hi - lo = (min n hi - lo) + 1 by omega,
        List.range'_concat, List.flatMap_append]
      simp only [List.flatMap_cons, List.flatMap_nil, List.append_nil]
      congr 2
      omega
    · rw [if_neg h, List.append_nil]
      congr 2
      omega

theorem windowFinite_eq (h w size : Nat) (p : Proj K) (x y : Nat) :
    windowFinite h w size p x y = nearFinite h w size p x y := by
  have inner : ∀ a, (List.range' (y - size / 2) (min w (y + size / 2 + 1) - (y - size / 2))).filterMap
      (fun b => p a b) = (List.range w).filterMap fun b =>
        if b ≤ y + size / 2 ∧ y ≤ b + size / 2 then p a b else none := by
    intro a
    have e := flatMap_ite_range w (y - size / 2) (y + size / 2 + 1) (fun b => (p a b).toList)
    rw [List.filterMap_eq_flatMap_toList, ← e, List.filterMap_eq_flatMap_toList]
    refine List.flatMap_congr fun b _ => ?_
    by_cases hb : b ≤ y + size / 2 ∧ y ≤ b + size / 2
    · rw [if_pos (by omega), if_pos hb]
    · rw [if_neg (by omega), if_neg hb]; rfl
  unfold windowFinite nearFinite
  simp only [inner]
  rw [← flatMap_ite_range]
  refine List.flatMap_congr fun a _ => ?_
  by_cases ha : a ≤ x + size / 2 ∧ x ≤ a + size / 2
  · rw [if_pos (by omega)]
    simp only [ha, true_and, and_self]
  · rw [if_neg (by omega)]
    simp only [ha, false_and, if_false]
    simp

theorem mem_nonfiniteIdx (h w : Nat) (p : Proj K) (x y : Nat) :
    (x, y) ∈ nonfiniteIdx h w p ↔ x < h ∧ y < w ∧ p x y = none := by
  unfold nonfiniteIdx
  simp only [List.mem_flatMap, List.mem_range, List.mem_map, List.mem_filter,
    Option.isNone_iff_eq_none, Prod.mk.injEq]
  constructor
  · rintro ⟨a, ha, b, ⟨hb, hp⟩, rfl, rfl⟩; exact ⟨ha, hb, hp⟩
  · rintro ⟨ha, hb, hp⟩; exact ⟨x, ha, y, ⟨hb, hp⟩, rfl, rfl⟩

theorem repair_eq (h w size : Nat) (orig : Proj K) (idx : List (Nat × Nat)) :
    ∀ p : Proj K, repair h w size orig idx p =
      if ∃ c ∈ idx, windowFinite h w size orig c.1 c.2 = [] then .error .value
      else .ok fun a b => if (a, b) ∈ idx then some (npMedian (windowFinite h w size orig a b))
        else p a b := by
  induction idx with
  | nil => intro p; simp [repair]
  | cons c rest ih =>
    obtain ⟨x, y⟩ := c
    intro p
    rw [repair]
    by_cases hw : windowFinite h w size orig x y = []
    · rw [if_pos (by rw [hw]; rfl), if_pos ⟨(x, y), by simp, hw⟩]
    · rw [if_neg (by rw [List.length_eq_zero_iff]; exact hw), ih]
      by_cases hr : ∃ c ∈ rest, windowFinite h w size orig c.1 c.2 = []
      · rw [if_pos hr]
        obtain ⟨c, hc, hc'⟩ := hr
        rw [if_pos ⟨c, List.mem_cons_of_mem _ hc, hc'⟩]
      · rw [if_neg hr, if_neg]
        · congr 1
          funext a b
          by_cases hab : (a, b) ∈ rest
          · rw [if_pos hab, if_pos (List.mem_cons_of_mem _ hab)]
          · rw [if_neg hab]
            by_cases hxy : a = x ∧ b = y
            · obtain ⟨rfl, rfl⟩ := hxy
              rw [if_pos ⟨rfl, rfl⟩, if_pos (by simp)]
            · rw [if_neg hxy, if_neg]
              intro hmem
              rcases List.mem_cons.1 hmem with e | e
              · cases e; exact hxy ⟨rfl, rfl⟩
              · exact hab e
        · rintro ⟨c, hc, hc'⟩
          rcases List.mem_cons.1 hc with e | e
          · subst e; exact hw hc'
          · exact hr ⟨c, e, hc'⟩

/-- **C21** The outcome does not depend on the order in which bad pixels are visited (any list
with the same pixels, repetitions allowed, gives the same result or the same error). -/
theorem nonfinite_order_independent (h w size : Nat) (p : Proj K) (idx : List (Nat × Nat))
    (hidx : ∀ c, c ∈ idx ↔ c ∈ nonfiniteIdx h w p) :
    repair h w size p idx p = repair h w size p (nonfiniteIdx h w p) p := by
  rw [repair_eq, repair_eq]
  simp only [hidx]

/-- **C21** One projection: `ValueError` exactly when some bad pixel sees no finite value;
otherwise finite pixels are unchanged and each bad pixel becomes the (numpy) median of the finite
values of the *original* projection near it. -/
theorem nonfinite_projection (h w size : Nat) (p : Proj K) :
    ((∃ x < h, ∃ y < w, p x y = none ∧ nearFinite h w size p x y = []) →
      repair h w size p (nonfiniteIdx h w p) p = .error .value) ∧
    ((∀ x < h, ∀ y < w, p x y = none → nearFinite h w size p x y ≠ []) →
      ∃ q, repair h w size p (nonfiniteIdx h w p) p = .ok q ∧
        (∀ x y v, p x y = some v → q x y = some v) ∧
        ∀ x < h, ∀ y < w, p x y = none →
          ∃ v, q x y = some v ∧ IsNpMedian (nearFinite h w size p x y) v) := by
  rw [repair_eq]
  simp only [windowFinite_eq]
  constructor
  · rintro ⟨x, hx, y, hy, hp, hn⟩
    rw [if_pos ⟨(x, y), (mem_nonfiniteIdx h w p x y).2 ⟨hx, hy, hp⟩, hn⟩]
  · intro hall
    rw [if_neg]
    · refine ⟨_, rfl, ?_, ?_⟩
      · intro x y v hv
        rw [if_neg]
        · exact hv
        · intro hmem
          have := ((mem_nonfiniteIdx h w p x y).1 hmem).2.2
          rw [hv] at this; cases this
      · intro x hx y hy hp
        refine ⟨_, by rw [if_pos ((mem_nonfiniteIdx h w p x y).2 ⟨hx, hy, hp⟩)], ?_⟩
        exact npMedian_spec (hall x hx y hy hp)
    · rintro ⟨⟨x, y⟩, hmem, hn⟩
      obtain ⟨hx, hy, hp⟩ := (mem_nonfiniteIdx h w p x y).1 hmem
      exact hall x hx y hy hp hn

/-- **C21** A stack: projections are treated independently; success iff every projection
succeeds, and then everything is finite. -/
theorem nonfinite_stack (h w size : Nat) (stack out : List (Proj K))
    (hout : medianNonfinite h w size stack = .ok out) :
    out.length = stack.length ∧ ∀ (i : Nat) (p q : Proj K), stack[i]? = some p → out[i]? = some q →
      (∀ x y v, p x y = some v → q x y = some v) ∧
      ∀ x < h, ∀ y < w, ∃ v, q x y = some v ∧
        (p x y = none → IsNpMedian (nearFinite h w size p x y) v) := by
  unfold medianNonfinite at hout
  induction stack generalizing out with
  | nil =>
    rw [List.mapM_nil] at hout
    cases hout
    exact ⟨rfl, fun i p q hp => by simp at hp⟩
  | cons p0 ps ih =>
    rw [List.mapM_cons] at hout
    simp only [bind, Except.bind, pure, Except.pure] at hout
    cases hr : repair h w size p0 (nonfiniteIdx h w p0) p0 with
    | error e => rw [hr] at hout; cases hout
    | ok q0 =>
      rw [hr] at hout
      simp only at hout
      cases hm : List.mapM (fun p => repair h w size p (nonfiniteIdx h w p) p) ps with
      | error e => rw [hm] at hout; cases hout
      | ok qs =>
        rw [hm] at hout
        cases hout
        obtain ⟨h1, h2⟩ := ih qs hm
        refine ⟨by simp [h1], ?_⟩
        intro i p q hp hq
        cases i with
        | zero =>
          simp only [List.getElem?_cons_zero, Option.some.injEq] at hp hq
          subst hp; subst hq
          obtain ⟨ha, hb⟩ := nonfinite_projection h w size p0
          by_cases hc : ∃ x < h, ∃ y < w, p0 x y = none ∧ nearFinite h w size p0 x y = []
          · rw [ha hc] at hr; cases hr
          · push Not at hc
            obtain ⟨q', hq', k1, k2⟩ := hb hc
            rw [hr] at hq'
            cases hq'
            refine ⟨k1, fun x hx y hy => ?_⟩
            cases hp : p0 x y with
            | some v => exact ⟨v, k1 x y v hp, fun h => by cases h⟩
            | none =>
              obtain ⟨v, hv, hmed⟩ := k2 x hx y hy hp
              exact ⟨v, hv, fun _ => hmed⟩
        | succ i =>
          simp only [List.getElem?_cons_succ] at hp hq
          exact h2 i p q hp hq

/-- **C21** The stack fails with `ValueError` exactly when one projection does. -/
theorem nonfinite_stack_error (h w size : Nat) (stack : List (Proj K)) :
    (∃ p ∈ stack, ∃ x < h, ∃ y < w, p x y = none ∧ nearFinite h w size p x y = []) ↔
      medianNonfinite h w size stack = .error .value := by
  unfold medianNonfinite
  induction stack with
  | nil =>
    rw [List.mapM_nil]
    constructor
    · rintro ⟨p, hp, _⟩; cases hp
    · intro h; cases h
  | cons p0 ps ih =>
    rw [List.mapM_cons]
    simp only [bind, Except.bind, pure, Except.pure]
    obtain ⟨ha, hb⟩ := nonfinite_projection h w size p0
    by_cases hc : ∃ x < h, ∃ y < w, p0 x y = none ∧ nearFinite h w size p0 x y = []
    · rw [ha hc]
      exact ⟨fun _ => rfl, fun _ => ⟨p0, by simp, hc⟩⟩
    · have hc' := hc
      push Not at hc'
      obtain ⟨q, hq, _⟩ := hb hc'
      rw [hq]
      simp only
      constructor
      · rintro ⟨p, hp, hx⟩
        rcases List.mem_cons.1 hp with e | e
        · subst e; exact absurd hx hc
        · rw [ih.1 ⟨p, e, hx⟩]
      · intro h
        cases hm : List.mapM (fun p => repair _ _ size p (nonfiniteIdx _ _ p) p) ps with
        | ok qs => rw [hm] at h; cases h
        | error e =>
          rw [hm] at h
          cases h
          obtain ⟨p, hp, hx⟩ := ih.2 hm
          exact ⟨p, List.mem_cons_of_mem _ hp, hx⟩

/-- value of one pixel of the first projection, for the concrete checks below -/
def firstPix (r : Except PyErr (List (Proj ℚ))) (x y : Nat) : Option (Option ℚ) :=
  match r with
  | .ok (q :: _) => some (q x y)
  | _ => none

example : firstPix (medianNonfinite 2 2 3
    [fun x y => if x = 0 ∧ y = 0 then none else some (x + 2 * y)]) 0 0 = some (some 2) := by
  decide +kernel

/-! ### C23 -/

/-- the reflected index is inside, is the identity inside, is symmetric about the edge and has
period `2n`; these facts determine it. -/
theorem reflect_spec (n : Nat) (hn : 0 < n) :
    (∀ i : Int, reflect n i < n) ∧ (∀ i : Nat, i < n → reflect n i = i) ∧
    (∀ i : Int, reflect n (-1 - i) = reflect n i) ∧
    (∀ i : Int, reflect n (i + 2 * n) = reflect n i) := by
  have hm : ∀ i : Int, 0 ≤ i % (2 * n) ∧ i % (2 * n) < 2 * n := fun i =>
    ⟨Int.emod_nonneg _ (by omega), Int.emod_lt_of_pos _ (by omega)⟩
  refine ⟨?_, ?_, ?_, ?_⟩
  · intro i
    unfold reflect
    simp only
    have := hm i
    split <;> omega
  · intro i hi
    unfold reflect
    simp only
    have : ((i : Int) % (2 * n)) = i := Int.emod_eq_of_lt (by omega) (by omega)
    rw [this]
    simp [hi]
  · intro i
    unfold reflect
    simp only
    have e : (-1 - i) % (2 * n : Int) = 2 * n - 1 - i % (2 * n) := by
      have h2 := hm i
      have : -1 - i = (2 * n - 1 - i % (2 * n)) + (2 * n) * (-(i / (2 * n)) - 1) := by
        have := Int.emod_add_mul_ediv i (2 * n)
        linarith
      rw [this, Int.add_mul_emod_self_left]
      exact Int.emod_eq_of_lt (by omega) (by omega)
    rw [e]
    have h2 := hm i
    split <;> split <;> omega
  · intro i
    unfold reflect
    rw [Int.add_emod_right]

theorem length_scipyWindow (h w size : Nat) (img : Nat → Nat → K) (y x : Nat) :
    (scipyWindow h w size img y x).length = size * size := by
  unfold scipyWindow
  rw [List.length_flatMap]
  simp

theorem scipyMedian_isRank (h w size : Nat) (hs : 0 < size) (img : Nat → Nat → K) (y x : Nat) :
    IsRank (scipyWindow h w size img y x) (size * size / 2) (scipyMedian h w size img y x) := by
  have hlen := length_scipyWindow h w size img y x
  have hpos : 0 < size * size := Nat.mul_pos hs hs
  have hk : size * size / 2 < (scipyWindow h w size img y x).length := by rw [hlen]; omega
  unfold scipyMedian
  rw [getD_sortL _ hk]
  exact sortL_isRank _ _ _

theorem foldl_tmp {β : Type} (slcs : List Mproc.Slc) (n : Nat) (v : Nat → β) :
    ∀ (t : Nat → Option β) (z : Nat),
      slcs.foldl (fun tmp s => fun z => if z ∈ s.indices n then some (v z) else tmp z) t z
        = if z ∈ (slcs.map (Mproc.Slc.indices n)).flatten then some (v z) else t z := by
  induction slcs with
  | nil => intro t z; simp
  | cons s ss ih =>
    intro t z
    rw [List.foldl_cons, ih, List.map_cons, List.flatten_cons]
    simp only [List.mem_append]
    by_cases h1 : z ∈ (ss.map (Mproc.Slc.indices n)).flatten
    · rw [if_pos h1, if_pos (Or.inr h1)]
    · rw [if_neg h1]
      by_cases h2 : z ∈ s.indices n
      · rw [if_pos h2, if_pos (Or.inl h2)]
      · rw [if_neg h2, if_neg (by tauto)]

theorem outlierTmp_eq (cpu n h w size : Nat) (hcpu : 0 < cpu) (hn : 0 < n) (ncore : Option Nat)
    (arr : Nat → Nat → Nat → K) :
    ∃ tmp, outlierTmp cpu n h w size ncore arr = .ok tmp ∧
      ∀ z < n, ∀ y x, tmp z y x = some (scipyMedian h w size (arr z) y x) := by
  obtain ⟨k, slcs, hok, hcov, _⟩ := Mproc.ncore_slices_cover cpu n hcpu hn ncore none
  unfold outlierTmp
  rw [hok]
  refine ⟨_, rfl, ?_⟩
  intro z hz y x
  have key : ∀ (slcs : List Mproc.Slc) (t : Nat → Nat → Nat → Option K),
      slcs.foldl (fun tmp s => fun z y x =>
        if z ∈ s.indices n then some (scipyMedian h w size (arr z) y x) else tmp z y x) t z y x
      = slcs.foldl (fun tmp s => fun z =>
        if z ∈ s.indices n then some (scipyMedian h w size (arr z) y x) else tmp z)
        (fun z => t z y x) z := by
    intro slcs
    induction slcs with
    | nil => intro t; rfl
    | cons s ss ih => intro t; rw [List.foldl_cons, List.foldl_cons, ih]
  rw [key, foldl_tmp, if_pos]
  rw [← List.flatMap_def, show slcs.flatMap (Mproc.Slc.indices n) = _ from hcov]
  exact List.mem_range.2 hz

/-- **C23** `remove_outlier` for every stack, window size ≥ 1, threshold, core count: with `med`
the window median (rank `size²/2` of the window with reflecting boundary), the pixel becomes
`med` exactly when it exceeds it by at least `dif`, otherwise it is untouched. -/
theorem remove_outlier_spec (cpu n h w size : Nat) (hcpu : 0 < cpu) (hn : 0 < n) (hs : 0 < size)
    (ncore : Option Nat) (dif : K) (arr : Nat → Nat → Nat → K) :
    ∃ out, removeOutlier cpu n h w size ncore dif arr = .ok out ∧
      ∀ z < n, ∀ y x, ∃ med v, IsRank (scipyWindow h w size (arr z) y x) (size * size / 2) med ∧
        out z y x = some v ∧
        (dif ≤ arr z y x - med → v = med) ∧ (arr z y x - med < dif → v = arr z y x) ∧
        (0 ≤ dif → v ≤ arr z y x) ∧ (0 < dif → v - med < dif) := by
  obtain ⟨tmp, ht, hv⟩ := outlierTmp_eq cpu n h w size hcpu hn ncore arr
  unfold removeOutlier
  rw [ht]
  refine ⟨_, rfl, ?_⟩
  intro z hz y x
  refine ⟨scipyMedian h w size (arr z) y x,
    outlierPix dif (arr z y x) (scipyMedian h w size (arr z) y x), scipyMedian_isRank h w size hs (arr z) y x,
    by simp only [hv z hz, Option.map_some], ?_, ?_, ?_, ?_⟩
  · intro hd; unfold outlierPix; rw [if_pos hd]
  · intro hd; unfold outlierPix; rw [if_neg (not_le.2 hd)]
  · intro hd
    unfold outlierPix
    split
    · linarith
    · exact le_refl _
  · intro hd
    unfold outlierPix
    split
    · linarith
    · rename_i hx; push Not at hx; exact hx

theorem reflect_unique {β : Type} (n : Nat) (hn : 0 < n) (f : Int → β)
    (hsym : ∀ i, f (-1 - i) = f i) (hper : ∀ i, f (i + 2 * n) = f i) (i : Int) :
    f i = f (reflect n i) := by
  have hmul : ∀ (q : Nat) (i : Int), f (i + 2 * n * q) = f i := by
    intro q
    induction q with
    | zero => intro i; simp
    | succ q ih =>
      intro i
      rw [show i + 2 * (n : Int) * ((q + 1 : Nat) : Int) = (i + 2 * n * q) + 2 * n by push_cast; ring,
        hper, ih]
  have hmod : f i = f (i % (2 * n)) := by
    have e := Int.emod_add_mul_ediv i (2 * n)
    rcases Int.le_total 0 (i / (2 * n)) with h | h
    · obtain ⟨q, hq⟩ := Int.eq_ofNat_of_zero_le h
      rw [hq] at e
      conv_lhs => rw [← e]
      exact hmul q _
    · obtain ⟨q, hq⟩ := Int.eq_ofNat_of_zero_le (Int.neg_nonneg_of_nonpos h)
      have : i % (2 * n) = i + 2 * n * q := by
        rw [← hq]; linarith
      rw [this, hmul]
  have h0 : 0 ≤ i % (2 * n) := Int.emod_nonneg _ (by omega)
  have h1 : i % (2 * n) < 2 * n := Int.emod_lt_of_pos _ (by omega)
  unfold reflect
  simp only
  split
  · rw [hmod]; congr 1; omega
  · rename_i hge
    rw [hmod, ← hsym, ← hper]
    congr 1
    omega

/-- **C23** The window is what scipy documents for mode 'reflect': for any extension `ext` of the
image to all integer coordinates that agrees with it inside and is mirror symmetric about every
edge, the window holds the values of `ext` at the `size×size` positions starting at
`(y - size//2, x - size//2)`. -/
theorem scipyWindow_reflect (h w size : Nat) (hh : 0 < h) (hw : 0 < w) (img : Nat → Nat → K)
    (ext : Int → Int → K) (hin : ∀ r < h, ∀ c < w, ext r c = img r c)
    (hr : ∀ r c, ext (-1 - r) c = ext r c) (hc : ∀ r c, ext r (-1 - c) = ext r c)
    (hr' : ∀ r c, ext (r + 2 * h) c = ext r c) (hc' : ∀ r c, ext r (c + 2 * w) = ext r c)
    (y x : Nat) :
    scipyWindow h w size img y x = (List.range size).flatMap fun (a : Nat) => (List.range size).map
      fun (b : Nat) => ext (y - (size / 2 : Nat) + a) (x - (size / 2 : Nat) + b) := by
  unfold scipyWindow
  refine List.flatMap_congr fun a _ => List.map_congr_left fun b _ => ?_
  rw [← hin _ ((reflect_spec h hh).1 _) _ ((reflect_spec w hw).1 _),
    ← reflect_unique h hh (fun r => ext r _) (fun i => hr i _) (fun i => hr' i _),
    ← reflect_unique w hw (fun c => ext _ c) (fun i => hc _ i) (fun i => hc' _ i)]
  congr 1 <;> ring

example : (fun r c : Int => ((reflect 3 r : Nat) : ℚ) + (reflect 2 c : Nat)) (-2) 5 = 1 + 1 := by
  decide +kernel

/-- one pixel of the result, for the concrete check below -/
def outPix (r : Except PyErr (Nat → Nat → Nat → Option ℚ)) (z y x : Nat) : Option ℚ :=
  match r with
  | .ok q => q z y x
  | _ => none

example : outPix (removeOutlier 4 2 3 3 3 none 5
      (fun z y x => if z = 1 ∧ y = 1 ∧ x = 1 then 100 else (y + x : ℚ))) 1 1 1 = some 2 ∧
    outPix (removeOutlier 4 2 3 3 3 none 5
      (fun z y x => if z = 1 ∧ y = 1 ∧ x = 1 then 100 else (y + x : ℚ))) 0 1 1 = some 2 := by
  decide +kernel

/-! ### C28 -/

/-- Specification: pixel `(i, j)` of an `n`×`m` plane has its centre strictly inside the centred
disc of radius `ratio*min(n,m)/2`. -/
def InDisc (n m : Nat) (ratio : K) (i j : Nat) : Prop :=
  ((i : K) + 1 / 2 - n / 2) ^ 2 + ((j : K) + 1 / 2 - m / 2) ^ 2
    < (ratio * (min n m : Nat) / 2) ^ 2

theorem getMask_iff (dx dy : Nat) (ratio : K) (i j : Nat) :
    getMask dx dy ratio i j = true ↔ InDisc dx dy ratio i j := by
  unfold getMask InDisc
  simp only [decide_eq_true_eq]
  have e1 : (1 / 2 - (dy : K) / 2 + j) * (1 / 2 - (dy : K) / 2 + j)
      + (1 / 2 - (dx : K) / 2 + i) * (1 / 2 - (dx : K) / 2 + i)
      = ((i : K) + 1 / 2 - dx / 2) ^ 2 + ((j : K) + 1 / 2 - dy / 2) ^ 2 := by ring
  have e2 : ratio * ratio * (if dx < dy then (dx : K) / 2 * (dx / 2) else dy / 2 * (dy / 2))
      = (ratio * (min dx dy : Nat) / 2) ^ 2 := by
    split
    · rename_i h
      rw [Nat.min_eq_left h.le]; ring
    · rename_i h
      rw [Nat.min_eq_right (by omega)]; ring
  rw [e1, e2]

/-- **C28** `circ_mask` along axis 0, 1, 2: the shape is kept; an element whose in-plane centre
is inside the disc is untouched, every other becomes `val`. -/
theorem circ_mask_spec (ratio val : K) (a : Recon.Arr3 K) (i j k : Nat) :
    ((circMask 0 ratio val a).d0 = a.d0 ∧ (circMask 0 ratio val a).d1 = a.d1 ∧
      (circMask 0 ratio val a).d2 = a.d2 ∧
      (InDisc a.d1 a.d2 ratio j k → (circMask 0 ratio val a).get i j k = a.get i j k) ∧
      (¬ InDisc a.d1 a.d2 ratio j k → (circMask 0 ratio val a).get i j k = val)) ∧
    ((circMask 1 ratio val a).d0 = a.d0 ∧ (circMask 1 ratio val a).d1 = a.d1 ∧
      (circMask 1 ratio val a).d2 = a.d2 ∧
      (InDisc a.d0 a.d2 ratio i k → (circMask 1 ratio val a).get i j k = a.get i j k) ∧
      (¬ InDisc a.d0 a.d2 ratio i k → (circMask 1 ratio val a).get i j k = val)) ∧
    ((circMask 2 ratio val a).d0 = a.d0 ∧ (circMask 2 ratio val a).d1 = a.d1 ∧
      (circMask 2 ratio val a).d2 = a.d2 ∧
      (InDisc a.d0 a.d1 ratio i j → (circMask 2 ratio val a).get i j k = a.get i j k) ∧
      (¬ InDisc a.d0 a.d1 ratio i j → (circMask 2 ratio val a).get i j k = val)) := by
  have hsymm : InDisc a.d1 a.d0 ratio j i ↔ InDisc a.d0 a.d1 ratio i j := by
    unfold InDisc
    rw [Nat.min_comm, add_comm]
  refine ⟨⟨rfl, rfl, rfl, ?_, ?_⟩, ⟨rfl, rfl, rfl, ?_, ?_⟩, ⟨rfl, rfl, rfl, ?_, ?_⟩⟩
  · intro h
    show (if getMask a.d1 a.d2 ratio j k = true then a.get i j k else val) = _
    rw [if_pos ((getMask_iff ..).2 h)]
  · intro h
    show (if getMask a.d1 a.d2 ratio j k = true then a.get i j k else val) = _
    rw [if_neg (fun e => h ((getMask_iff ..).1 e))]
  · intro h
    show (if getMask a.d0 a.d2 ratio i k = true then a.get i j k else val) = _
    rw [if_pos ((getMask_iff ..).2 h)]
  · intro h
    show (if getMask a.d0 a.d2 ratio i k = true then a.get i j k else val) = _
    rw [if_neg (fun e => h ((getMask_iff ..).1 e))]
  · intro h
    show (if getMask a.d1 a.d0 ratio j i = true then a.get i j k else val) = _
    rw [if_pos ((getMask_iff ..).2 (hsymm.2 h))]
  · intro h
    show (if getMask a.d1 a.d0 ratio j i = true then a.get i j k else val) = _
    rw [if_neg (fun e => h (hsymm.1 ((getMask_iff ..).1 e)))]

/-- **C28** Applying the mask twice is the same as once, for every axis. -/
theorem circ_mask_idempotent (axis : Nat) (ratio val : K) (a : Recon.Arr3 K) :
    circMask axis ratio val (circMask axis ratio val a) = circMask axis ratio val a := by
  have h : ∀ (b : Bool) (x y : K), (if b = true then (if b = true then x else y) else y)
      = if b = true then x else y := by
    intro b x y; cases b <;> rfl
  match axis with
  | 0 => unfold circMask swap0; simp only [h]
  | 1 => unfold circMask swap0; simp only [h]
  | (n + 2) => unfold circMask swap0; simp only [h]

/-- **C28** A larger ratio keeps more: masks are monotone in `|ratio|`. -/
theorem circ_mask_monotone (n m i j : Nat) (r r' : K) (hr : |r| ≤ |r'|)
    (h : getMask n m r i j = true) : getMask n m r' i j = true := by
  rw [getMask_iff] at *
  unfold InDisc at *
  refine lt_of_lt_of_le h ?_
  have h2 : r ^ 2 ≤ r' ^ 2 := sq_le_sq.2 hr
  have e : ∀ t : K, (t * (min n m : Nat) / 2) ^ 2 = t ^ 2 * (((min n m : Nat) : K) / 2) ^ 2 := by
    intro t; ring
  rw [e, e]
  exact mul_le_mul_of_nonneg_right h2 (sq_nonneg _)

example : InDisc (K := ℚ) 4 4 1 1 1 ∧ ¬ InDisc (K := ℚ) 4 4 1 0 0 := by
  unfold InDisc; constructor <;> norm_num

end Field

/-! ### C25 -/

/-- **C25 (partial)** For float32 and uint16 input the matching kernel gets a buffer of its own
type. -/
theorem dtype_dispatch_partial (t : DType) (h : t = .float32 ∨ t = .uint16) :
    (medDispatch t).1 = t ∧ itemsize (medDispatch t).1 = kernelSize (medDispatch t).2 ∧
    ∀ n, bytesWritten t n = itemsize (medDispatch t).1 * n := by
  rcases h with rfl | rfl <;> exact ⟨rfl, rfl, fun n => rfl⟩

/-- **C25 (refutation)** For every other dtype (float64, int32, …) the buffer is converted to
float32 but handed to the uint16 kernel: it stores only the first half of the output bytes, so
`median_filter3d` returns uninitialised memory in every voxel `v ≥ n/2`. -/
theorem dtype_dispatch_wrong (name : String) (n : Nat) :
    medDispatch (.other name) = (.float32, .uint16) ∧
    2 * bytesWritten (.other name) n = itemsize (medDispatch (.other name)).1 * n ∧
    ∀ v, n ≤ 2 * v → bytesWritten (.other name) n ≤ itemsize (medDispatch (.other name)).1 * v := by
  refine ⟨rfl, ?_, ?_⟩
  · show 2 * (2 * n) = 4 * n
    omega
  · intro v hv
    show 2 * n ≤ 4 * v
    omega

/-! ### C58 -/

/-- **C58 (partial)** With a C-ordered input, and for `remove_outlier3d` always, element
`(z,y,x)` of the result is the value the kernel computed for voxel `(z,y,x)`. -/
theorem median_layout_partial {K : Type} (lay : Layout) (dz dy dx : Nat) (res : Nat → K)
    (z y x : Nat) :
    medianOut .c dz dy dx res z y x = res (idx3 dx dy x y z) ∧
    outlierOut lay dz dy dx res z y x = res (idx3 dx dy x y z) := by
  constructor
  · show res (dy * dx * z + y * dx + x) = res (dx * dy * z + y * dx + x)
    rw [Nat.mul_comm dy dx]
  · show res (dy * dx * z + y * dx + x) = res (dx * dy * z + y * dx + x)
    rw [Nat.mul_comm dy dx]

/-- **C58 (refutation)** For a Fortran-ordered array the voxels of the result are permuted: in a
2×2×2 volume, element (0,0,1) of the returned array is the value computed for (1,0,0). -/
theorem median_layout_wrong {K : Type} (res : Nat → K) :
    medianOut .f 2 2 2 res 0 0 1 = res (idx3 2 2 0 0 1) ∧
    idx3 2 2 1 0 0 ≠ idx3 2 2 0 0 1 := by
  refine ⟨rfl, by decide⟩

end Tomopy.Corr
