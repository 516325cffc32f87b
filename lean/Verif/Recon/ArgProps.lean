import Verif.Recon.ArgModel
import Mathlib.Data.List.Perm.Basic
import Mathlib.Tactic.Ring
import Mathlib.Tactic.Linarith

/-! C169: arrays of angles and centres of other lengths. -/
set_option linter.unusedSectionVars false

namespace Tomopy.Recon

/-! ## Specification -/

/-- All reads lie inside arrays of the given lengths. -/
def Inside (len : Buf → Nat) (rs : List Read) : Prop := ∀ r ∈ rs, r.2 < len r.1

/-- The blocks are non-empty ranges of the `n` slices and together hold all of them. -/
def Blocks (n : Nat) (bs : List (Nat × Nat)) : Prop :=
  (∀ b ∈ bs, b.1 < b.2 ∧ b.2 ≤ n) ∧ ∀ s < n, ∃ b ∈ bs, b.1 ≤ s ∧ s < b.2

theorem inside_append {len : Buf → Nat} {a b : List Read} :
    Inside len (a ++ b) ↔ Inside len a ∧ Inside len b := by
  simp only [Inside, List.mem_append]
  exact ⟨fun h => ⟨fun r hr => h r (Or.inl hr), fun r hr => h r (Or.inr hr)⟩,
    fun h r hr => hr.elim (h.1 r) (h.2 r)⟩

theorem inside_cons {len : Buf → Nat} {a : Read} {b : List Read} :
    Inside len (a :: b) ↔ a.2 < len a.1 ∧ Inside len b := by
  simp [Inside]

theorem inside_flatMap {α : Type} {len : Buf → Nat} {l : List α} {f : α → List Read} :
    Inside len (l.flatMap f) ↔ ∀ x ∈ l, Inside len (f x) := by
  simp only [Inside, List.mem_flatMap]
  exact ⟨fun h x hx r hr => h r ⟨x, hx, hr⟩, fun h r ⟨x, hx, hr⟩ => h x hx r hr⟩

theorem inside_theta {len : Buf → Nat} {l : List Nat} :
    Inside len (l.map fun p => (Buf.theta, p)) ↔ ∀ p ∈ l, p < len .theta := by
  simp [Inside]

theorem range_lt {n m : Nat} : (∀ p ∈ List.range n, p < m) ↔ n ≤ m := by
  constructor
  · intro h
    by_contra hn
    exact absurd (h m (List.mem_range.mpr (by omega))) (by omega)
  · intro h p hp
    have := List.mem_range.mp hp
    omega

theorem perm_range_lt {n m : Nat} {ind : List Nat} (hp : ind.Perm (List.range n)) :
    (∀ p ∈ ind, p < m) ↔ n ≤ m := by
  rw [← range_lt]
  exact ⟨fun h p hx => h p (hp.mem_iff.mpr hx), fun h p hx => h p (hp.mem_iff.mp hx)⟩

/-- What one call reads: all angles, and centres of its slices including the first one. -/
theorem kernReads_inside {k : Kern} {dy dt num_iter : Nat} {ind : List Nat} (hy : 0 < dy)
    (hi : 0 < num_iter) (hp : ind.Perm (List.range dt)) {len : Buf → Nat} (hc : dy ≤ len .center) :
    Inside len (kernReads k dy dt num_iter ind) ↔ dt ≤ len .theta := by
  cases k <;>
    simp only [kernReads, inside_flatMap, inside_cons, inside_append, inside_theta, range_lt,
      perm_range_lt hp] <;> try simp only [List.mem_range]
  · exact ⟨fun h => (h 0 hi).2, fun h _ _ => ⟨by omega, h⟩⟩
  · exact ⟨fun h => (h 0 hy).2, fun h s hs => ⟨by omega, h⟩⟩
  · refine ⟨fun h => h.1, fun h => ⟨h, ?_⟩⟩
    intro r hr
    obtain ⟨s, hs, rfl⟩ := List.mem_map.mp hr
    have := List.mem_range.mp (List.mem_filter.mp hs).1
    show s < len .center
    omega
  · exact ⟨fun h => (h 0 hi 0 hy).2, fun h _ _ s hs => ⟨by omega, h⟩⟩
  · exact ⟨fun h => (h 0 hi 0 hy).2, fun h _ _ s hs => ⟨by omega, h⟩⟩

theorem blockReads_inside {k : Kern} {dt num_iter : Nat} {ind : List Nat} {b : Nat × Nat}
    (hb : b.1 < b.2) (hi : 0 < num_iter) (hp : ind.Perm (List.range dt)) {len : Buf → Nat}
    (hc : b.2 ≤ len .center) :
    Inside len (blockReads k dt num_iter ind b) ↔ dt ≤ len .theta := by
  have h := kernReads_inside (k := k) (show 0 < b.2 - b.1 by omega) hi hp
    (len := fun x => if x = .center then len .center - b.1 else len x)
    (by simp only [if_true]; omega)
  simp only [reduceCtorEq, if_false] at h
  rw [← h]
  unfold blockReads Inside
  constructor
  · intro hr r hm
    have := hr _ (List.mem_map_of_mem (f := fun r : Read => if r.1 = Buf.center then (r.1, b.1 + r.2) else r) hm)
    by_cases h1 : r.1 = .center
    · simp only [h1, if_true] at this ⊢
      omega
    · simpa only [h1, if_false] using this
  · intro hr r hm
    obtain ⟨q, hq, rfl⟩ := List.mem_map.mp hm
    have := hr q hq
    by_cases h1 : q.1 = .center
    · simp only [h1, if_true] at this ⊢
      omega
    · simpa only [h1, if_false] using this

/-- **C169**: `recon` accepts exactly one angle per view, and one centre for all slices or one per slice; it
refuses everything else with `ValueError`. -/
theorem recon_lengths_checked (k : Kern) (n dt num_iter : Nat) (ind : List Nat) (thetas : Nat)
    (center : Option Nat) (blocks : List (Nat × Nat)) :
    ((∃ rs, reconReads k n dt num_iter ind thetas center blocks = .ok rs) ↔
      thetas = dt ∧ (center = none ∨ center = some 1 ∨ center = some n)) ∧
    ∀ e, reconReads k n dt num_iter ind thetas center blocks = .error e → e = .value := by
  have hc : centerLen n center = n ↔ (center = none ∨ center = some 1 ∨ center = some n) := by
    unfold centerLen
    split <;> simp_all
  unfold reconReads
  by_cases h1 : dt = thetas
  · by_cases h2 : n = centerLen n center
    · rw [if_neg (by simpa using h1), if_neg (by simpa using h2)]
      exact ⟨⟨fun _ => ⟨h1.symm, hc.mp h2.symm⟩, fun _ => ⟨_, rfl⟩⟩, fun e he => by cases he⟩
    · rw [if_neg (by simpa using h1), if_pos h2]
      refine ⟨⟨fun h => (by obtain ⟨rs, h⟩ := h; cases h), fun h => absurd (hc.mpr h.2).symm h2⟩, ?_⟩
      intro e he
      cases he
      rfl
  · rw [if_pos h1]
    refine ⟨⟨fun h => (by obtain ⟨rs, h⟩ := h; cases h), fun h => absurd h.1.symm h1⟩, ?_⟩
    intro e he
    cases he
    rfl

/-- **C169**: a call of `recon` that is not refused reads inside the arrays of angles and centres, whatever
the method, the subsets and the distribution over workers. -/
theorem recon_inside (k : Kern) {n dt num_iter : Nat} {ind : List Nat} (hp : ind.Perm (List.range dt))
    {thetas : Nat} {center : Option Nat} {blocks : List (Nat × Nat)} (hb : Blocks n blocks) {rs : List Read}
    (h : reconReads k n dt num_iter ind thetas center blocks = .ok rs) :
    Inside (fun | .theta => thetas | .center => centerLen n center | .data _ => 0) rs := by
  unfold reconReads at h
  split at h
  · cases h
  rename_i h1
  split at h
  · cases h
  rename_i h2
  cases h
  rw [inside_flatMap]
  intro b hbm
  obtain ⟨h3, h4⟩ := hb.1 b hbm
  rcases Nat.eq_zero_or_pos num_iter with rfl | hi
  · have hz : Inside (fun | .theta => thetas | .center => centerLen n center | .data _ => 0)
        (blockReads k dt 1 ind b) :=
      (blockReads_inside h3 (by omega) hp (by show b.2 ≤ centerLen n center; omega)).mpr
        (by show dt ≤ thetas; omega)
    cases k
    · intro r hr; simp [blockReads, kernReads] at hr
    · exact hz
    · exact hz
    · intro r hr; simp [blockReads, kernReads] at hr
    · intro r hr; simp [blockReads, kernReads] at hr
  · exact (blockReads_inside h3 hi hp (by show b.2 ≤ centerLen n center; omega)).mpr
      (by show dt ≤ thetas; omega)

/-- What one pass of the vector methods reads. -/
theorem passReads_inside {k dy dt dx : Nat} {hit : Nat → Nat → Nat → Bool} (hy : 0 < dy)
    {len : Buf → Nat} :
    Inside len (passReads k dy dt dx hit) ↔ dy ≤ len .center ∧ dt ≤ len .theta ∧
      ∀ s < dy, ∀ p < dt, ∀ d < dx, hit s p d = true → d + p * dx + s * dt * dx < len (.data k) := by
  simp only [passReads, inside_flatMap, inside_cons, List.mem_range]
  rw [show dy ≤ len .center ↔ ∀ s < dy, s < len .center by
      rw [← range_lt]; simp only [List.mem_range],
    show dt ≤ len .theta ↔ ∀ p < dt, p < len .theta by rw [← range_lt]; simp only [List.mem_range]]
  have hd : ∀ s p, Inside len (((List.range dx).filter (hit s p)).map
      fun d => (Buf.data k, d + p * dx + s * dt * dx)) ↔
      ∀ d < dx, hit s p d = true → d + p * dx + s * dt * dx < len (.data k) := by
    intro s p
    simp only [Inside, List.mem_map, List.mem_filter, List.mem_range]
    constructor
    · intro h d hd hh
      exact h _ ⟨d, ⟨hd, hh⟩, rfl⟩
    · rintro h r ⟨d, ⟨hd, hh⟩, rfl⟩
      exact h d hd hh
  simp only [hd]
  constructor
  · intro h
    exact ⟨fun s hs => (h s hs).1, fun p hp => ((h 0 hy).2 p hp).1, fun s hs p hp => ((h s hs).2 p hp).2⟩
  · rintro ⟨h1, h2, h3⟩ s hs
    exact ⟨h1 s hs, fun p hp => ⟨h2 p hp, h3 s hs p hp⟩⟩

/-- **C169**: the vector methods check nothing; they read inside their arrays exactly if there are enough
angles and centres for the first data set and all data sets reach to the last ray of the first one that
crosses the grid. -/
theorem vector_inside_iff {sets dy dt dx num_iter : Nat} {hit : Nat → Nat → Nat → Bool} (hs : 0 < sets)
    (hy : 0 < dy) (hi : 0 < num_iter) (len : Buf → Nat) :
    Inside len (vectorReads sets dy dt dx num_iter hit) ↔ dy ≤ len .center ∧ dt ≤ len .theta ∧
      ∀ k < sets, ∀ s < dy, ∀ p < dt, ∀ d < dx, hit s p d = true →
        d + p * dx + s * dt * dx < len (.data k) := by
  simp only [vectorReads, inside_flatMap, List.mem_range, passReads_inside hy]
  constructor
  · intro h
    exact ⟨(h 0 hi 0 hs).1, (h 0 hi 0 hs).2.1, fun k hk => (h 0 hi k hk).2.2⟩
  · rintro ⟨h1, h2, h3⟩ _ _ k hk
    exact ⟨h1, h2, h3 k hk⟩

/-- **C169**: with data sets of one shape and arrays of matching lengths (one centre, or one per slice) the
vector methods read inside their arrays. -/
theorem vector_inside_partial {sets dy dt dx num_iter : Nat} {hit : Nat → Nat → Nat → Bool} (hs : 0 < sets)
    (hy : 0 < dy) (hi : 0 < num_iter) {center : Option Nat}
    (hc : center = none ∨ center = some 1 ∨ center = some dy) :
    Inside (fun | .theta => dt | .center => centerLen dy center | .data _ => dy * dt * dx)
      (vectorReads sets dy dt dx num_iter hit) := by
  rw [vector_inside_iff hs hy hi]
  refine ⟨?_, le_refl _, ?_⟩
  · rcases hc with rfl | rfl | rfl
    · exact le_refl _
    · exact le_refl _
    · show dy ≤ centerLen dy (some dy)
      unfold centerLen
      split <;> simp_all
  · intro k _ s hs p hp d hd _
    show d + p * dx + s * dt * dx < dy * dt * dx
    have h1 : d + p * dx < dt * dx := by
      calc d + p * dx < dx + p * dx := by omega
        _ = (p + 1) * dx := by ring
        _ ≤ dt * dx := Nat.mul_le_mul_right _ hp
    calc d + p * dx + s * dt * dx < dt * dx + s * dt * dx := by omega
      _ = (s + 1) * (dt * dx) := by ring
      _ ≤ dy * (dt * dx) := Nat.mul_le_mul_right _ hs
      _ = dy * dt * dx := by ring

/-- **C169**: `project` has the views of its angles; it reads inside the array of centres exactly if every
block of slices begins before the end of that array. -/
theorem project_inside_iff {oy nchunk : Nat} (dt m : Nat) :
    Inside (fun | .theta => dt | .center => m | .data _ => 0) (projectReads oy dt nchunk m) ↔
      ∀ lo < oy, lo % nchunk = 0 → lo < m := by
  simp only [projectReads, inside_flatMap, inside_cons, inside_theta, range_lt, le_refl, and_true]
  simp only [List.mem_filter, List.mem_range, decide_eq_true_eq, and_imp]
  constructor
  · intro h lo h1 h2
    have := h lo h1 h2
    omega
  · intro h lo h1 h2
    have := h lo h1 h2
    omega

/-- **C169**: for `project2` and `project3` any array of centres will do that is not empty. -/
theorem project23_inside_iff (dt m : Nat) :
    Inside (fun | .theta => dt | .center => m | .data _ => 0) (project23Reads dt) ↔ 0 < m := by
  simp only [project23Reads, inside_cons, inside_theta, range_lt, le_refl, and_true]

/-- **C169, refuted for the vector methods**: two centres for three slices. -/
theorem vector_short_center_wrong (hit : Nat → Nat → Nat → Bool) :
    ¬ Inside (fun | .theta => 4 | .center => centerLen 3 (some 2) | .data _ => 60)
      (vectorReads 1 3 4 5 1 hit) := by
  rw [vector_inside_iff (by omega) (by omega) (by omega)]
  rintro ⟨h, -, -⟩
  exact absurd h (by decide)

/-- **C169, refuted for the vector methods**: a second data set of one slice, a first one of two. -/
theorem vector_other_shape_wrong :
    ¬ Inside (fun | .theta => 4 | .center => 2 | .data k => if k = 0 then 40 else 20)
      (vectorReads 2 2 4 5 1 fun _ _ _ => true) := by
  rw [vector_inside_iff (by omega) (by omega) (by omega)]
  rintro ⟨-, -, h⟩
  exact absurd (h 1 (by omega) 1 (by omega) 0 (by omega) 0 (by omega) rfl) (by decide)

/-- **C169, refuted for `project`**: two centres for three slices, taken one by one. -/
theorem project_short_center_wrong :
    ¬ Inside (fun | .theta => 4 | .center => centerLen 3 (some 2) | .data _ => 0)
      (projectReads 3 4 1 (centerLen 3 (some 2))) := by
  rw [project_inside_iff]
  intro h
  exact absurd (h 2 (by omega) rfl) (by decide)

/-! ## Examples -/

/-- The hypotheses of `recon_inside`: three slices in two blocks, subsets in another order. -/
example : Blocks 3 [(0, 2), (2, 3)] ∧ [1, 0].Perm (List.range 2) ∧
    reconReads .subsets 3 2 1 [1, 0] 2 (some 3) [(0, 2), (2, 3)] =
      .ok [(.center, 0), (.theta, 1), (.theta, 0), (.center, 1), (.theta, 1), (.theta, 0), (.center, 2),
        (.theta, 1), (.theta, 0)] := ⟨⟨by decide, by decide⟩, by decide, by decide⟩

/-- Too few angles. -/
example : reconReads .art 3 2 1 [1, 0] 1 none [(0, 2), (2, 3)] = .error .value := rfl

/-- `project` with three centres for four slices in blocks of two reads inside. -/
example : Inside (fun | .theta => 4 | .center => 3 | .data _ => 0) (projectReads 4 4 2 3) := by
  rw [project_inside_iff]
  intro lo h1 h2
  omega

end Tomopy.Recon
