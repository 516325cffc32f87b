import Verif.Stripe.SfModel
import Mathlib.Algebra.BigOperators.Ring.Finset
import Mathlib.Algebra.BigOperators.Field
import Mathlib.Algebra.Order.Ring.Rat
import Mathlib.Algebra.Order.Field.Rat
import Mathlib.Algebra.CharZero.Defs
import Mathlib.Tactic.FieldSimp
import Mathlib.Tactic.NormNum

/-! Theorems about `remove_stripe_sf` (C40). -/
set_option linter.unusedSectionVars false

namespace Tomopy.Stripe
open Tomopy.Par

variable {K : Type} [Field K]

/-! ### Specification -/

/-- Nearest existing column. -/
def nearestCol (n : Nat) (k : Int) : Nat := (max 0 (min k ((n : Int) - 1))).toNat

/-- Mean of a column over the angles. -/
def colMean (dx : Nat) (X : Nat → Nat → K) (j : Nat) : K :=
  (∑ p ∈ Finset.range dx, X p j) / dx

/-- Mean of the column means in a window of `size` columns around `j`, the border columns
repeated. -/
def smoothMean (dx dz size : Nat) (X : Nat → Nat → K) (j : Nat) : K :=
  (∑ t ∈ Finset.range size, colMean dx X (nearestCol dz ((j : Int) + t - (size / 2 : Nat)))) / size

/-! ### Loops -/

/-- A loop that accumulates into one cell. -/
theorem run_acc {ν V L : Type} [DecidableEq L] (acc : L) (src : ν → L) (f : ν → V → V → V)
    (ts : List ν) (hs : ∀ t ∈ ts, src t ≠ acc) : ∀ m : L → V,
    (Prog.forEach (fun t => .read acc fun a => .read (src t) fun x =>
      .write acc (f t a x) .done) ts).run m
    = upd m acc (ts.foldl (fun a t => f t a (m (src t))) (m acc)) := by
  induction ts with
  | nil =>
    intro m; funext l
    simp only [Prog.forEach, Prog.run, upd, List.foldl_nil]
    split
    · rename_i h; rw [h]
    · rfl
  | cons t ts ih =>
    intro m
    rw [Prog.forEach, run_seq]
    simp only [Prog.run]
    rw [ih fun u hu => hs u (List.mem_cons_of_mem _ hu)]
    funext l
    simp only [upd, if_true, List.foldl_cons]
    split
    · refine List.foldl_ext _ _ _ fun a u hu => ?_
      rw [if_neg (hs u (List.mem_cons_of_mem _ hu))]
    · rfl

/-! ### Addresses -/

theorem sfAddr_idx (d : SfArgs) (p s j : Int) : sfAddr d p s j = idx d.dz d.dy j s p := by
  unfold sfAddr idx; ring

theorem sfClamp_eq (d : SfArgs) (hz : 0 < d.dz) (i j : Int) :
    sfClamp d i j = nearestCol d.dz (i + j - Int.tdiv d.size 2) := by
  unfold sfClamp nearestCol
  dsimp only
  split <;> split <;> omega

theorem nearestCol_lt {n : Nat} (hn : 0 < n) (k : Int) : nearestCol n k < n := by
  unfold nearestCol; omega

/-- Cells of `data` inside the array. -/
def SfData (d : SfArgs) (l : SfCell) : Prop :=
  ∃ a : Int, 0 ≤ a ∧ a < (d.dx * d.dy * d.dz : Nat) ∧ l = .data a

theorem sfAddr_in (d : SfArgs) {p s j : Nat} (hp : p < d.dx) (hs : s < d.dy) (hj : j < d.dz) :
    SfData d (.data (sfAddr d p s j)) := by
  obtain ⟨h1, h2⟩ := idx_bounds (dX := d.dz) (dY := d.dy) (dZ := d.dx) (i := j) (j := s) (k := p)
    (by omega) (by omega) (by omega) (by omega) (by omega) (by omega)
  refine ⟨_, by rw [sfAddr_idx]; exact h1, ?_, rfl⟩
  rw [sfAddr_idx]
  refine lt_of_lt_of_eq h2 ?_
  push_cast
  ring

theorem sfAddr_inj (d : SfArgs) {p s j p' s' j' : Nat} (hs : s < d.dy) (hj : j < d.dz)
    (hs' : s' < d.dy) (hj' : j' < d.dz) (h : sfAddr d p s j = sfAddr d p' s' j') :
    p = p' ∧ s = s' ∧ j = j' := by
  rw [sfAddr_idx, sfAddr_idx] at h
  obtain ⟨h1, h2, h3⟩ := idx_inj (by omega) (by omega) (by omega) (by omega) (by omega) (by omega)
    (by omega) (by omega) h
  omega

theorem mem_sfPixels {d : SfArgs} {v : Nat × Nat} : v ∈ sfPixels d ↔ v.1 < d.dx ∧ v.2 < d.dz := by
  obtain ⟨p, j⟩ := v
  simp only [sfPixels, List.mem_flatMap, List.mem_map, List.mem_range, Prod.mk.injEq]
  constructor
  · rintro ⟨a, ha, b, hb, rfl, rfl⟩; exact ⟨ha, hb⟩
  · rintro ⟨h1, h2⟩; exact ⟨p, h1, j, h2, rfl, rfl⟩

theorem nodup_sfPixels (d : SfArgs) : (sfPixels d).Nodup := by
  unfold sfPixels
  rw [List.nodup_flatMap]
  constructor
  · intro j _
    exact List.nodup_range.map fun a b h => by simpa using h
  · refine List.nodup_range.imp ?_
    intro a b hab x hx hy
    simp only [List.mem_map] at hx hy
    obtain ⟨_, _, rfl⟩ := hx
    obtain ⟨_, _, h⟩ := hy
    cases h
    exact hab rfl

/-! ### One slice -/

theorem avg_own (d : SfArgs) {s : Nat} (hs : s < d.dy) {j : Nat} (hj : j < d.dz) :
    OwnCell (SfData d) (fun j : Nat => SfCell.avg j) (sfAvg (K := K) d s) j :=
  within_forEach _ _ fun _ hp =>
    ⟨Or.inr rfl, fun _ => ⟨Or.inl (sfAddr_in d (List.mem_range.1 hp) hs hj), fun _ => ⟨rfl, trivial⟩⟩⟩

/-- Cells of the average row inside the row. -/
def SfAvgRow (d : SfArgs) (l : SfCell) : Prop := ∃ j : Nat, j < d.dz ∧ l = .avg j

theorem smooth_own (d : SfArgs) {i : Nat} (hi : i < d.dz) :
    OwnCell (SfAvgRow d) (fun j : Nat => SfCell.smooth j) (sfSmooth (K := K) d) i := by
  refine ⟨rfl, within_seq (within_forEach _ _ fun t _ => ⟨Or.inr rfl, fun _ =>
    ⟨Or.inl ?_, fun _ => ⟨rfl, trivial⟩⟩⟩) ⟨Or.inr rfl, fun _ => ⟨rfl, trivial⟩⟩⟩
  rw [sfClamp_eq d (by omega)]
  exact ⟨_, nearestCol_lt (by omega) _, rfl⟩

/-- Cells of the two rows. -/
def SfRows (d : SfArgs) (l : SfCell) : Prop := ∃ j : Nat, j < d.dz ∧ (l = .avg j ∨ l = .smooth j)

theorem sub_own (d : SfArgs) (s : Nat) {v : Nat × Nat} (hv : v ∈ sfPixels d) :
    OwnCell (SfRows d) (fun v : Nat × Nat => SfCell.data (sfAddr d v.1 s v.2))
      (sfSub (K := K) d s) v := by
  rw [mem_sfPixels] at hv
  exact ⟨Or.inl ⟨_, hv.2, Or.inl rfl⟩, fun _ => ⟨Or.inl ⟨_, hv.2, Or.inr rfl⟩, fun _ =>
    ⟨Or.inr rfl, fun _ => ⟨rfl, trivial⟩⟩⟩⟩

/-- Column average as computed. -/
def avgVal (d : SfArgs) (x : Sino K) (j : Nat) : Option K :=
  (List.range d.dx).foldl (fun a p => nadd a (ndiv (x p j) d.dx)) (some 0)

/-- Smoothed average as computed. -/
def smoothVal (d : SfArgs) (x : Sino K) (i : Nat) : Option K :=
  ndiv ((List.range d.size.toNat).foldl (fun a (t : Nat) =>
    nadd a (avgVal d x (nearestCol d.dz ((i : Int) + t - Int.tdiv d.size 2)))) (some 0)) d.size

theorem slice_run (d : SfArgs) {s : Nat} (hs : s < d.dy) (x : Sino K) (m : SfCell → Option K)
    (hx : ∀ p < d.dx, ∀ j < d.dz, m (.data (sfAddr d p s j)) = x p j) :
    (∀ p < d.dx, ∀ j < d.dz, (sfSlice d s).run m (.data (sfAddr d p s j))
      = nsub (x p j) (nsub (avgVal d x j) (smoothVal d x j))) ∧
    ∀ a, (∀ p < d.dx, ∀ j < d.dz, a ≠ sfAddr d p s j) →
      (sfSlice d s).run m (.data a) = m (.data a) := by
  unfold sfSlice
  rw [run_seq, run_seq, run_seq]
  -- fresh rows
  obtain ⟨a0, b0⟩ := forEach_run (L := SfCell) (V := Option K) (Rd := fun _ => False)
    (own := fun j : Nat => SfCell.avg j)
    (body := fun j : Nat => .write (.avg j) (some 0) .done) (List.range d.dz)
    (fun _ _ => ⟨rfl, trivial⟩) (fun _ _ h => h) (fun v _ w _ e => by simpa using e)
    List.nodup_range m
  generalize Prog.run _ m = m0 at a0 b0 ⊢
  have z0 : ∀ j < d.dz, m0 (.avg j) = some 0 := fun j hj => by
    rw [a0 j (List.mem_range.2 hj)]; simp [Prog.run, upd]
  have d0 : ∀ a, m0 (.data a) = m (.data a) := fun a => b0 _ fun _ _ e => by cases e
  -- averages
  obtain ⟨a1, b1⟩ := forEach_run (Rd := SfData d) (own := fun j : Nat => SfCell.avg j)
    (body := sfAvg (K := K) d s) (List.range d.dz)
    (fun j hj => avg_own d hs (List.mem_range.1 hj))
    (fun j _ => by rintro ⟨a, _, _, e⟩; cases e) (fun v _ w _ e => by simpa using e)
    List.nodup_range m0
  generalize Prog.run _ m0 = m1 at a1 b1 ⊢
  have v1 : ∀ j < d.dz, m1 (.avg j) = avgVal d x j := fun j hj => by
    rw [a1 j (List.mem_range.2 hj)]
    unfold sfAvg
    rw [run_acc (SfCell.avg j) (fun p : Nat => SfCell.data (sfAddr d p s j))
      (fun _ a x => nadd a (ndiv x d.dx))
      _ (fun _ _ => by simp)]
    simp only [upd, if_true]
    rw [z0 j hj]
    unfold avgVal
    refine List.foldl_ext _ _ _ fun a p hp => ?_
    rw [d0, hx p (List.mem_range.1 hp) j hj]
  have d1 : ∀ a, m1 (.data a) = m (.data a) := fun a => by
    rw [b1 _ (fun _ _ e => by cases e)]; exact d0 a
  -- smoothing
  obtain ⟨a2, b2⟩ := forEach_run (Rd := SfAvgRow d) (own := fun j : Nat => SfCell.smooth j)
    (body := sfSmooth (K := K) d) (List.range d.dz)
    (fun j hj => smooth_own d (List.mem_range.1 hj))
    (fun j _ => by rintro ⟨a, _, e⟩; cases e) (fun v _ w _ e => by simpa using e)
    List.nodup_range m1
  generalize Prog.run _ m1 = m2 at a2 b2 ⊢
  have v2 : ∀ j < d.dz, m2 (.smooth j) = smoothVal d x j := fun j hj => by
    rw [a2 j (List.mem_range.2 hj)]
    unfold sfSmooth
    rw [Prog.run, run_seq, run_acc (SfCell.smooth j) (fun t : Nat => SfCell.avg (sfClamp d j t))
      (fun _ a x => nadd a x) _ (fun _ _ => by simp)]
    simp only [Prog.run, upd, if_true]
    unfold smoothVal
    congr 1
    refine List.foldl_ext _ _ _ fun a t _ => ?_
    rw [if_neg (by simp), sfClamp_eq d (by omega), v1 _ (nearestCol_lt (by omega) _)]
  have w2 : ∀ j < d.dz, m2 (.avg j) = avgVal d x j := fun j hj => by
    rw [b2 _ (fun _ _ e => by cases e)]; exact v1 j hj
  have d2 : ∀ a, m2 (.data a) = m (.data a) := fun a => by
    rw [b2 _ (fun _ _ e => by cases e)]; exact d1 a
  -- subtraction
  obtain ⟨a3, b3⟩ := forEach_run (Rd := SfRows d)
    (own := fun v : Nat × Nat => SfCell.data (sfAddr d v.1 s v.2))
    (body := sfSub (K := K) d s) (sfPixels d) (fun v hv => sub_own d s hv)
    (fun v _ => by rintro ⟨a, _, e | e⟩ <;> cases e)
    (fun v hv w hw e => by
      rw [mem_sfPixels] at hv hw
      have := sfAddr_inj d hs hv.2 hs hw.2 (by simpa using e)
      exact Prod.ext this.1 this.2.2)
    (nodup_sfPixels d) m2
  refine ⟨fun p hp j hj => ?_, fun a ha => ?_⟩
  · rw [a3 (p, j) (mem_sfPixels.2 ⟨hp, hj⟩)]
    simp only [sfSub, Prog.run, upd, if_true]
    rw [v2 j hj, w2 j hj, d2, hx p hp j hj]
  · rw [b3 _ ?_, d2]
    rintro ⟨p, j⟩ hv e
    rw [mem_sfPixels] at hv
    refine ha p hv.1 j hv.2 (by simpa using e)

theorem slices_run (d : SfArgs) (X : Nat → Sino K) (ss : List Nat) (hn : ss.Nodup)
    (hss : ∀ s ∈ ss, s < d.dy) : ∀ m : SfCell → Option K,
    (∀ s < d.dy, ∀ p < d.dx, ∀ j < d.dz, m (.data (sfAddr d p s j)) = X s p j) →
    ∀ s < d.dy, ∀ p < d.dx, ∀ j < d.dz,
      (Prog.forEach (sfSlice d) ss).run m (.data (sfAddr d p s j))
        = if s ∈ ss then nsub (X s p j) (nsub (avgVal d (X s) j) (smoothVal d (X s) j))
          else X s p j := by
  induction ss generalizing X with
  | nil => intro m hm s hs p hp j hj; rw [if_neg (by simp)]; exact hm s hs p hp j hj
  | cons s0 ss ih =>
    intro m hm s hs p hp j hj
    obtain ⟨hnot, hn'⟩ := List.nodup_cons.1 hn
    have hs0 := hss s0 List.mem_cons_self
    obtain ⟨h1, h2⟩ := slice_run d hs0 (X s0) m (hm s0 hs0)
    rw [Prog.forEach, run_seq, ih (fun s p j => if s = s0 then
        nsub (X s p j) (nsub (avgVal d (X s) j) (smoothVal d (X s) j)) else X s p j) hn'
      (fun s hs => hss s (List.mem_cons_of_mem _ hs)) _ ?_ s hs p hp j hj]
    · by_cases e : s = s0
      · subst e
        rw [if_neg hnot, if_pos rfl, if_pos List.mem_cons_self]
      · simp only [List.mem_cons, e, false_or, if_false]
    · intro s hs p hp j hj
      by_cases e : s = s0
      · subst e
        rw [if_pos rfl]
        exact h1 p hp j hj
      · rw [if_neg e, h2, hm s hs p hp j hj]
        intro p' hp' j' hj' he
        exact e (sfAddr_inj d hs hj hs0 hj' he).2.1

/-- What the C function leaves in every pixel, NaN included. -/
theorem sf_run (d : SfArgs) (X : Nat → Sino K) (m : SfCell → Option K)
    (hm : ∀ s < d.dy, ∀ p < d.dx, ∀ j < d.dz, m (.data (sfAddr d p s j)) = X s p j) :
    ∀ s < d.dy, ∀ p < d.dx, ∀ j < d.dz, (sfProg d).run m (.data (sfAddr d p s j))
      = nsub (X s p j) (nsub (avgVal d (X s) j) (smoothVal d (X s) j)) := by
  intro s hs p hp j hj
  unfold sfProg
  rw [slices_run d X _ List.nodup_range (fun s hs => List.mem_range.1 hs) m hm s hs p hp j hj,
    if_pos (List.mem_range.2 hs)]

/-! ### Finite data -/

variable [CharZero K]

theorem foldl_nadd {α : Type} (l : List α) (f : α → K) : ∀ a : K,
    l.foldl (fun acc t => nadd acc (some (f t))) (some a) = some (a + (l.map f).sum) := by
  induction l with
  | nil => intro a; simp
  | cons t l ih => intro a; simp only [List.foldl_cons, List.map_cons, List.sum_cons]
                   rw [show nadd (some a) (some (f t)) = some (a + f t) from rfl, ih, add_assoc]

theorem sum_range_list (n : Nat) (f : Nat → K) :
    ((List.range n).map f).sum = ∑ t ∈ Finset.range n, f t := by
  induction n with
  | zero => simp
  | succ n ih => rw [List.range_succ, List.map_append, List.sum_append, Finset.sum_range_succ, ih]
                 simp

theorem avgVal_some (d : SfArgs) (x : Sino K) (X : Nat → Nat → K) {j : Nat}
    (hx : ∀ p < d.dx, x p j = some (X p j)) : avgVal d x j = some (colMean d.dx X j) := by
  unfold avgVal
  have e : (List.range d.dx).foldl (fun a p => nadd a (ndiv (x p j) d.dx)) (some 0)
      = (List.range d.dx).foldl (fun a p => nadd a (some (X p j / d.dx))) (some 0) := by
    refine List.foldl_ext _ _ _ fun a p hp => ?_
    have hp' := List.mem_range.1 hp
    rw [hx p hp']
    unfold ndiv
    rw [if_neg (by omega)]
    simp
  rw [e, foldl_nadd, sum_range_list, zero_add]
  unfold colMean
  rw [Finset.sum_div]

theorem smoothVal_some (d : SfArgs) (hd : d.size ≠ 0) (x : Sino K) (X : Nat → Nat → K)
    (hx : ∀ p < d.dx, ∀ j < d.dz, x p j = some (X p j)) {i : Nat} (hi : i < d.dz) :
    smoothVal d x i = some ((∑ t ∈ Finset.range d.size.toNat,
      colMean d.dx X (nearestCol d.dz ((i : Int) + t - Int.tdiv d.size 2))) / d.size) := by
  unfold smoothVal
  have e : (List.range d.size.toNat).foldl (fun a (t : Nat) =>
      nadd a (avgVal d x (nearestCol d.dz ((i : Int) + t - Int.tdiv d.size 2)))) (some 0)
      = (List.range d.size.toNat).foldl (fun a (t : Nat) =>
        nadd a (some (colMean d.dx X (nearestCol d.dz ((i : Int) + t - Int.tdiv d.size 2)))))
        (some 0) := by
    refine List.foldl_ext _ _ _ fun a t _ => ?_
    rw [avgVal_some d x X fun p hp => hx p hp _ (nearestCol_lt (by omega) _)]
  rw [e, foldl_nadd, sum_range_list, zero_add]
  unfold ndiv
  rw [if_neg hd]
  rfl

/-! ### C40 -/

/-- `data` holds the finite values `X` (slice, angle, column). -/
def HoldsStack (d : SfArgs) (m : SfCell → Option K) (X : Nat → Nat → Nat → K) : Prop :=
  ∀ s < d.dy, ∀ p < d.dx, ∀ j < d.dz,
    m (.data (j + s * d.dz + p * d.dy * d.dz)) = some (X s p j)

/-- **C40** Every access of `remove_stripe_sf` is inside the array resp. inside the rows of `dz`
elements, for every stack, whatever it contains, and every window size (also 0 or negative). -/
theorem sf_in_bounds (d : SfArgs) :
    (sfProg (K := K) d).Within
      (fun l => (∃ a : Int, 0 ≤ a ∧ a < (d.dx * d.dy * d.dz : Nat) ∧ l = .data a) ∨
        ∃ a : Int, 0 ≤ a ∧ a < d.dz ∧ (l = .avg a ∨ l = .smooth a))
      (fun l => (∃ a : Int, 0 ≤ a ∧ a < (d.dx * d.dy * d.dz : Nat) ∧ l = .data a) ∨
        ∃ a : Int, 0 ≤ a ∧ a < d.dz ∧ (l = .avg a ∨ l = .smooth a)) := by
  refine within_forEach _ _ fun s hs => ?_
  have hs := List.mem_range.1 hs
  have row : ∀ j : Nat, j < d.dz → (∃ a : Int, 0 ≤ a ∧ a < (d.dz : Int) ∧
      (SfCell.avg j = .avg a ∨ SfCell.avg j = .smooth a)) ∧
      (∃ a : Int, 0 ≤ a ∧ a < (d.dz : Int) ∧
      (SfCell.smooth j = .avg a ∨ SfCell.smooth j = .smooth a)) := fun j hj =>
    ⟨⟨j, by omega, by omega, Or.inl rfl⟩, ⟨j, by omega, by omega, Or.inr rfl⟩⟩
  refine within_seq (within_forEach _ _ fun j hj => ⟨Or.inr (row j (List.mem_range.1 hj)).1,
    trivial⟩) (within_seq (within_forEach _ _ fun j hj => ?_) (within_seq
      (within_forEach _ _ fun j hj => ?_) (within_forEach _ _ fun v hv => ?_)))
  · have hj := List.mem_range.1 hj
    refine within_weaken (avg_own d hs hj) ?_ ?_
    · rintro l (h | rfl)
      · exact Or.inl h
      · exact Or.inr (row j hj).1
    · rintro l rfl; exact Or.inr (row j hj).1
  · have hj := List.mem_range.1 hj
    refine within_weaken (smooth_own d hj) ?_ ?_
    · rintro l (⟨k, hk, rfl⟩ | rfl)
      · exact Or.inr (row k hk).1
      · exact Or.inr (row j hj).2
    · rintro l rfl; exact Or.inr (row j hj).2
  · have hv' := mem_sfPixels.1 hv
    refine within_weaken (sub_own d s hv) ?_ ?_
    · rintro l (⟨k, hk, rfl | rfl⟩ | rfl)
      · exact Or.inr (row k hk).1
      · exact Or.inr (row k hk).2
      · exact Or.inl (sfAddr_in d hv'.1 hs hv'.2)
    · rintro l rfl; exact Or.inl (sfAddr_in d hv'.1 hs hv'.2)

/-- **C40** For every window size of at least 1, the C function subtracts from each pixel the mean
of its column minus the mean of the column means in the window: a number that does not depend on
the angle. -/
theorem sf_result (dx dy dz size : Nat) (h1 : 1 ≤ size) (X : Nat → Nat → Nat → K)
    (m : SfCell → Option K) (hX : HoldsStack ⟨dx, dy, dz, size⟩ m X) :
    HoldsStack ⟨dx, dy, dz, size⟩ ((sfProg ⟨dx, dy, dz, size⟩).run m) fun s p j =>
      X s p j - (colMean dx (X s) j - smoothMean dx dz size (X s) j) := by
  intro s hs p hp j hj
  refine (sf_run ⟨dx, dy, dz, size⟩ (fun s p j => some (X s p j)) m hX s hs p hp j hj).trans ?_
  rw [avgVal_some _ _ (X s) fun p _ => rfl,
    smoothVal_some _ (by dsimp only; omega) _ (X s) (fun _ _ _ _ => rfl) hj]
  have e : Int.tdiv (size : Int) 2 = (size / 2 : Nat) := by
    rw [Int.tdiv_eq_ediv_of_nonneg (by omega)]; omega
  simp only [e, nsub, Option.bind_some, Option.map_some, Int.toNat_natCast, smoothMean,
    Int.cast_natCast]

/-- **C40** If the mean row of a sinogram is constant, the sinogram is returned unchanged.
(`_partial`: needs a positive window size, see `sf_size_zero` and `sf_size_negative`.) -/
theorem sf_constant_mean_partial (dx dy dz size : Nat) (h1 : 1 ≤ size) (X : Nat → Nat → Nat → K)
    (m : SfCell → Option K) (hX : HoldsStack ⟨dx, dy, dz, size⟩ m X) (s : Nat) (hs : s < dy)
    (c : K) (hc : ∀ j < dz, colMean dx (X s) j = c) :
    ∀ p < dx, ∀ j < dz,
      (sfProg ⟨dx, dy, dz, size⟩).run m (.data (j + s * dz + p * dy * dz)) = some (X s p j) := by
  intro p hp j hj
  rw [sf_result dx dy dz size h1 X m hX s hs p hp j hj]
  dsimp only
  rw [hc j hj]
  congr 1
  have : smoothMean dx dz size (X s) j = c := by
    unfold smoothMean
    rw [Finset.sum_congr rfl fun t _ => hc _ (nearestCol_lt (by omega) _), Finset.sum_const,
      Finset.card_range, nsmul_eq_mul, mul_div_cancel_left₀]
    have : (size : K) ≠ 0 := by exact_mod_cast (by omega : size ≠ 0)
    exact this
  rw [this]
  ring

/-- **C40** A perfectly vertical structure moves only the offsets: adding one number per column to
the input changes the output by numbers that again do not depend on the angle. -/
theorem sf_adds_column_offsets (dx dy dz size : Nat) (h1 : 1 ≤ size) (X : Nat → Nat → Nat → K)
    (c : Nat → K) (m m' : SfCell → Option K) (hdx : 0 < dx)
    (hX : HoldsStack ⟨dx, dy, dz, size⟩ m X)
    (hX' : HoldsStack ⟨dx, dy, dz, size⟩ m' fun s p j => X s p j + c j) :
    ∀ s < dy, ∀ p < dx, ∀ j < dz, ∃ y y',
      (sfProg ⟨dx, dy, dz, size⟩).run m (.data (j + s * dz + p * dy * dz)) = some y ∧
      (sfProg ⟨dx, dy, dz, size⟩).run m' (.data (j + s * dz + p * dy * dz)) = some y' ∧
      y' - y = (∑ t ∈ Finset.range size, c (nearestCol dz ((j : Int) + t - (size / 2 : Nat)))) / size := by
  intro s hs p hp j hj
  refine ⟨_, _, sf_result dx dy dz size h1 X m hX s hs p hp j hj,
    sf_result dx dy dz size h1 _ m' hX' s hs p hp j hj, ?_⟩
  have hdx' : (dx : K) ≠ 0 := by exact_mod_cast (by omega : dx ≠ 0)
  have hm : ∀ j, colMean dx (fun p j => X s p j + c j) j = colMean dx (X s) j + c j := by
    intro j
    unfold colMean
    rw [Finset.sum_add_distrib, Finset.sum_const, Finset.card_range, nsmul_eq_mul]
    field_simp
  have e : smoothMean dx dz size (fun p j => X s p j + c j) j = smoothMean dx dz size (X s) j
      + (∑ t ∈ Finset.range size, c (nearestCol dz ((j : Int) + t - (size / 2 : Nat)))) / size := by
    unfold smoothMean
    simp only [hm]
    rw [Finset.sum_add_distrib, add_div]
  dsimp only
  rw [hm, e]
  ring

/-- **C40** (what the argument check lacks) `size = 0` turns every pixel into NaN. -/
theorem sf_size_zero (dx dy dz : Nat) (m : SfCell → Option K) :
    ∀ s < dy, ∀ p < dx, ∀ j < dz,
      (sfProg ⟨dx, dy, dz, 0⟩).run m (.data (j + s * dz + p * dy * dz)) = none := by
  intro s hs p hp j hj
  refine (sf_run ⟨dx, dy, dz, 0⟩ (fun s p j => m (.data (sfAddr ⟨dx, dy, dz, 0⟩ p s j))) m
    (fun _ _ _ _ _ _ => rfl) s hs p hp j hj).trans ?_
  have : smoothVal (K := K) ⟨dx, dy, dz, 0⟩
      (fun p j => m (.data (sfAddr ⟨dx, dy, dz, 0⟩ p s j))) j = none := by
    unfold smoothVal ndiv
    rw [if_pos rfl]
  rw [this]
  simp [nsub]

/-- **C40** (what the argument check lacks) A negative `size` subtracts the whole column mean, so
even a constant sinogram is not returned unchanged. -/
theorem sf_size_negative (dx dy dz : Nat) (size : Int) (h : size < 0) (X : Nat → Nat → Nat → K)
    (m : SfCell → Option K) (hX : HoldsStack ⟨dx, dy, dz, size⟩ m X) :
    HoldsStack ⟨dx, dy, dz, size⟩ ((sfProg ⟨dx, dy, dz, size⟩).run m) fun s p j =>
      X s p j - colMean dx (X s) j := by
  intro s hs p hp j hj
  refine (sf_run ⟨dx, dy, dz, size⟩ (fun s p j => some (X s p j)) m hX s hs p hp j hj).trans ?_
  rw [avgVal_some _ _ (X s) fun p _ => rfl,
    smoothVal_some _ (by dsimp only; omega) _ (X s) (fun _ _ _ _ => rfl) hj]
  have : size.toNat = 0 := by omega
  simp [nsub, this]

/-! ### Distribution over workers -/

theorem sfLoad_data (d : SfArgs) (rows : List (Sino K)) {p s j : Nat}
    (hs : s < d.dy) (hj : j < d.dz) :
    sfLoad d rows (.data (sfAddr d p s j)) = rows.getD s (fun _ _ => none) p j := by
  have e : (sfAddr d p s j).toNat = j + d.dz * (s + d.dy * p) := by
    have : sfAddr d p s j = ((j + d.dz * (s + d.dy * p) : Nat) : Int) := by
      unfold sfAddr; push_cast; ring
    rw [this, Int.toNat_natCast]
  have e1 : (j + d.dz * (s + d.dy * p)) % d.dz = j := by
    rw [Nat.add_mul_mod_self_left, Nat.mod_eq_of_lt hj]
  have e2 : (j + d.dz * (s + d.dy * p)) / d.dz = s + d.dy * p := by
    rw [Nat.add_mul_div_left _ _ (by omega), Nat.div_eq_of_lt hj, zero_add]
  have e3 : (s + d.dy * p) % d.dy = s := by rw [Nat.add_mul_mod_self_left, Nat.mod_eq_of_lt hs]
  have e4 : (s + d.dy * p) / d.dy = p := by
    rw [Nat.add_mul_div_left _ _ (by omega), Nat.div_eq_of_lt hs, zero_add]
  unfold sfLoad
  dsimp only
  rw [e, e1, ← Nat.div_div_eq_div_mul, e2, e3, e4]

/-- One sinogram on its own. -/
def sfOne (dx dz : Nat) (size : Int) (x : Sino K) : Sino K := fun p j =>
  if p < dx ∧ j < dz then
    nsub (x p j) (nsub (avgVal ⟨dx, 1, dz, size⟩ x j) (smoothVal ⟨dx, 1, dz, size⟩ x j))
  else none

theorem sf_inplace (dx dz : Nat) (size : Int) :
    Mproc.InPlaceSlicewise (cRemoveStripeSf (K := K) dx dz size)
      (fun row => row.set 0 (sfOne dx dz size (row.headD fun _ _ => none))) where
  ret _ := rfl
  len _ := List.length_set
  inplace rows := by
    unfold cRemoveStripeSf
    dsimp only
    refine List.ext_getElem (by simp) fun s h1 h2 => ?_
    have hs : s < rows.length := by simpa using h2
    simp only [List.getElem_map, List.getElem_range]
    have eg : rows.getD s [] = rows[s] := by simp [List.getD, hs]
    rw [eg]
    congr 1
    funext p j
    unfold sfStore sfOne
    dsimp only
    split
    · rename_i hpj
      set X : Nat → Sino K := fun s => (rows.map fun r => r.headD fun _ _ => none).getD s
        fun _ _ => none with hXdef
      have hX : X s = rows[s].headD fun _ _ => none := by
        simp [hXdef, List.getD, hs]
      rw [sf_run ⟨dx, rows.length, dz, size⟩ X _
        (fun s' hs' p' _ j' hj' => sfLoad_data _ _ hs' hj') s hs p hpj.1 j hpj.2, hX]
      rfl
    · rfl

/-- **C40** The Python function: for every number of cores, chunk size and schedule, every slice of
the returned array is the result of the C function on that slice alone. -/
theorem sf_distributed (cpu : Nat) (debug : Bool) (n dx dz : Nat) (size : Int)
    (ncore nchunk : Option Nat) (m m' : Mproc.Cell → Sino K) (res : Mproc.Buf)
    (h : Mproc.DistributeJobs cpu debug
      ⟨n, [0], none, fun _ => false, cRemoveStripeSf dx dz size, ncore, nchunk, fun _ => false⟩
      (fun _ => false) m m' res) :
    ∀ s < n, ∀ p < dx, ∀ j < dz, m' (res, s) p j
      = (sfProg ⟨dx, 1, dz, size⟩).run (sfLoad ⟨dx, 1, dz, size⟩ [m (.caller 0, s)])
          (.data (j + p * dz)) := by
  intro s hs p hp j hj
  have key := Mproc.inplace_result_partial (sf_inplace (K := K) dx dz size) (by simp) (by simp) rfl
    h s hs
  simp only [List.map_cons, List.map_nil, List.headD_cons, List.set_cons_zero,
    List.getLast?_singleton, Option.some.injEq] at key
  rw [key]
  have := sf_run (K := K) ⟨dx, 1, dz, size⟩ (fun _ => m (.caller 0, s))
    (sfLoad ⟨dx, 1, dz, size⟩ [m (.caller 0, s)]) (fun s' hs' p' _ j' hj' => by
      rw [sfLoad_data _ _ hs' hj']
      have : s' = 0 := by dsimp only at hs'; omega
      subst this
      rfl) 0 (by dsimp only; omega) p hp j hj
  have ea : sfAddr ⟨dx, 1, dz, size⟩ p (0 : Nat) j = (j : Int) + p * dz := by
    unfold sfAddr; push_cast; ring
  rw [ea] at this
  rw [this]
  unfold sfOne
  rw [if_pos ⟨hp, hj⟩]

/-! A stack, its memory and a distributed call. -/
example : HoldsStack (K := ℚ) ⟨2, 1, 3, 3⟩
    (fun l => match l with | .data a => some (a : ℚ) | _ => none)
    (fun _ p j => (j : ℚ) + p * 3) := by
  intro s hs p hp j hj
  dsimp only at *
  have : s = 0 := by omega
  subst this
  push_cast
  ring_nf

/-- Mean row 0, 3, 0 smoothed with window 3 is 1, 1, 1; the middle column is lowered by 2. -/
example : (sfProg (K := ℚ) ⟨2, 1, 3, 3⟩).run
    (fun l => match l with | .data 1 => some 2 | .data 4 => some 4 | _ => some 0) (.data 4)
    = some 2 := by decide +kernel

example (m : Mproc.Cell → Sino ℚ) : ∃ m' res, Mproc.DistributeJobs 4 false
    ⟨10, [0], none, fun _ => false, cRemoveStripeSf 3 5 3, none, none, fun _ => false⟩
    (fun _ => false) m m' res :=
  Mproc.distribute_jobs_total 4 false _ _ m 4 3 (by decide)

end Tomopy.Stripe
