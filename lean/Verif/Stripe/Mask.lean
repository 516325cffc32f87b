import Verif.Stripe.Loop
import Mathlib.Algebra.Order.Ring.Rat
import Mathlib.Algebra.Order.Field.Rat
import Mathlib.Data.Rat.Floor
import Mathlib.Logic.Function.Iterate

/-! Theorems about `stripes_mask3d` (C42). -/
set_option linter.unusedSectionVars false

namespace Tomopy.Stripe
open Tomopy.Par Tomopy.Num

variable {K : Type} [LinearOrder K] [Field K] [IsStrictOrderedRing K] [FloorRing K]

/-! ### Specification -/

/-- A mask: which voxels (column, depth row, angle) are set. -/
abbrev Mask := Int → Int → Int → Prop

/-- Coordinate `i + d` if it is in `[0, n)`, its mirror image `i - d` otherwise. -/
def mirror (n : Nat) (i d : Int) : Int := if 0 ≤ i + d ∧ i + d < n then i + d else i - d

open Classical in
/-- Number of offsets in `[-h, h]` along the angles at which the mask is set. -/
noncomputable def vertCount (n h : Nat) (S : Mask) (i j k : Int) : Nat :=
  ((Finset.Icc (-(h : Int)) h).filter fun d => S i j (mirror n k d)).card

open Classical in
/-- Number of offsets in `[-h, h]` along the depth at which the mask is set. -/
noncomputable def depthCount (n h : Nat) (S : Mask) (i j k : Int) : Nat :=
  ((Finset.Icc (-(h : Int)) h).filter fun d => S i (mirror n j d) k).card

/-- Voxels that are not deep: at most `sensitivity` percent of `depth` set neighbours. -/
def NotDeep (p : MaskArgs K) (S : Mask) : Mask := fun i j k =>
  S i j k ∧ (p.depth = 0 ∨
    (depthCount p.dY (p.depth / 2) S i j k : Int) ≤ ⌊p.sensitivity / 100 * p.depth⌋)

/-- Voxels that are long: at least `sensitivity` percent of `length` set neighbours. -/
def LongEnough (p : MaskArgs K) (S : Mask) : Mask := fun i j k =>
  S i j k ∧ ⌊p.sensitivity / 100 * p.length⌋ ≤ (vertCount p.dZ (p.length / 2) S i j k : Int)

/-- Voxels with at least half the length as set neighbours. -/
def NotShort (p : MaskArgs K) (S : Mask) : Mask := fun i j k =>
  S i j k ∧ p.length / 2 ≤ vertCount p.dZ (p.length / 2) S i j k

/-- One round of merging: voxels between two set ones, in the row or along the angles. -/
def Merged (p : MaskArgs K) (S : Mask) : Mask := fun i j k =>
  S i j k ∨
  ((∃ d : Nat, d ≤ p.width / 2 ∧ S (if 0 ≤ i - d then i - d else i + d) j k) ∧
    (∃ d : Nat, d ≤ p.width / 2 ∧ S (if i + d < p.dX then i + d else i - d) j k)) ∨
  ((∃ d : Nat, d ≤ 2 * p.width ∧ S i j (if 0 ≤ k - d then k - d else k + d)) ∧
    (∃ d : Nat, d ≤ 2 * p.width ∧ S i j (if k + d < p.dZ then k + d else k - d)))

/-- The voxels below the threshold. -/
def Below (p : MaskArgs K) (W : Int → Int → Int → K) : Mask := fun i j k => W i j k ≤ p.threshold

/-- The mask after the clean-up stages. -/
def Cleaned (p : MaskArgs K) (W : Int → Int → Int → K) : Mask :=
  NotShort p (LongEnough p (NotDeep p (Below p W)))

/-- What `stripes_mask3d` is to return for weights `W`. -/
def FinalMask (p : MaskArgs K) (W : Int → Int → Int → K) : Mask :=
  (Merged p)^[p.width] (Cleaned p W)

/-- The parameters the documentation of `stripes_mask3d` allows. -/
def Admissible (p : MaskArgs K) : Prop :=
  0 < p.length ∧ p.length < p.dZ ∧ p.depth < p.dY ∧ 0 < p.width ∧ p.width < p.dX ∧
  0 < p.sensitivity ∧ p.sensitivity ≤ 100

/-- A coordinate triple inside the volume. -/
def InVol (p : MaskArgs K) (i j k : Int) : Prop :=
  0 ≤ i ∧ i < p.dX ∧ 0 ≤ j ∧ j < p.dY ∧ 0 ≤ k ∧ k < p.dZ

/-- The flat array `c` of the memory holds the mask. -/
def Rep (p : MaskArgs K) (c : Int → Cell) (S : Mask) (m : Cell → K) : Prop :=
  ∀ i j k, InVol p i j k → (m (c (idx p.dX p.dY i j k)) ≠ 0 ↔ S i j k)

/-- Cells of the arrays of length `n`. -/
def CellIn (n : Nat) : Cell → Prop
  | .input a => 0 ≤ a ∧ a < n
  | .work a => 0 ≤ a ∧ a < n
  | .out a => 0 ≤ a ∧ a < n

/-! ### Coordinates -/

theorem refl_eq_mirror (n : Nat) (i d : Int) : refl n i d = mirror n i d := by
  unfold refl mirror
  split <;> split <;> omega

theorem mirror_bounds {n h : Nat} {i d : Int} (hi : 0 ≤ i) (hi' : i < n) (hd : -(h : Int) ≤ d)
    (hd' : d ≤ h) (hh : 2 * h ≤ n) : 0 ≤ mirror n i d ∧ mirror n i d < n := by
  unfold mirror
  split <;> omega

theorem reflLo_bounds {n h : Nat} {i d : Int} (hi : 0 ≤ i) (hi' : i < n) (hd : -(h : Int) ≤ d)
    (hd' : d ≤ 0) (hh : 2 * h ≤ n) : 0 ≤ reflLo i d ∧ reflLo i d < n := by
  unfold reflLo
  split <;> omega

theorem reflHi_bounds {n h : Nat} {i d : Int} (hi : 0 ≤ i) (hi' : i < n) (hd : 0 ≤ d)
    (hd' : d ≤ h) (hh : 2 * h ≤ n) : 0 ≤ reflHi n i d ∧ reflHi n i d < n := by
  unfold reflHi
  split <;> omega

/-! ### The search loop -/

theorem within_anySet {R W : Cell → Prop} (cs : List Cell) (hc : ∀ c ∈ cs, R c)
    (k : Bool → Prog Cell K) (hk : ∀ b, (k b).Within R W) : (anySet cs k).Within R W := by
  induction cs with
  | nil => exact hk false
  | cons c cs ih =>
    refine ⟨hc c List.mem_cons_self, fun v => ?_⟩
    dsimp only
    split
    · exact hk true
    · exact ih fun c h => hc c (List.mem_cons_of_mem _ h)

open Classical in
theorem run_anySet (cs : List Cell) (k : Bool → Prog Cell K) (m : Cell → K) :
    (anySet cs k).run m = (k (decide (∃ c ∈ cs, m c ≠ 0))).run m := by
  induction cs with
  | nil => simp [anySet]
  | cons c cs ih =>
    rw [anySet, Prog.run]
    by_cases h : m c ≠ 0
    · rw [if_pos h]
      congr 2
      exact (decide_eq_true ⟨c, List.mem_cons_self, h⟩).symm
    · rw [if_neg h, ih]
      congr 2
      refine decide_eq_decide.2 ?_
      simp only [List.mem_cons, exists_eq_or_imp, h, false_or]

theorem exists_cells {a b : Int} (f : Int → Cell) (q : Cell → Prop) :
    (∃ c ∈ (intRange a b).map f, q c) ↔ ∃ d, a ≤ d ∧ d ≤ b ∧ q (f d) := by
  simp only [List.mem_map, mem_intRange]
  constructor
  · rintro ⟨_, ⟨d, hd, rfl⟩, h⟩; exact ⟨d, hd.1, hd.2, h⟩
  · rintro ⟨d, h1, h2, h⟩; exact ⟨_, ⟨d, ⟨h1, h2⟩, rfl⟩, h⟩

/-! ### Footprints -/

/-- Cells of the work array inside the volume. -/
def WorkIn (n : Nat) (l : Cell) : Prop := ∃ a, 0 ≤ a ∧ a < (n : Int) ∧ l = .work a

theorem at_in (p : MaskArgs K) {i j k : Int} (h : InVol p i j k) : WorkIn p.total (p.at i j k) := by
  obtain ⟨h1, h2, h3, h4, h5, h6⟩ := h
  obtain ⟨a, b⟩ := idx_bounds h1 h2 h3 h4 h5 h6
  exact ⟨_, a, b, rfl⟩

theorem vertCells_in (p : MaskArgs K) (hp : Admissible p) {i j k : Nat}
    (h : InVol p i j k) : ∀ c ∈ vertCells p (p.length / 2) i j k, WorkIn p.total c := by
  intro c hc
  obtain ⟨d, hd, rfl⟩ := List.mem_map.1 hc
  rw [mem_intRange] at hd
  obtain ⟨h1, h2, h3, h4, h5, h6⟩ := h
  obtain ⟨_, hl, _⟩ := hp
  rw [refl_eq_mirror]
  obtain ⟨a, b⟩ := mirror_bounds h5 h6 hd.1 hd.2 (by omega)
  exact at_in p ⟨h1, h2, h3, h4, a, b⟩

theorem depthCells_in (p : MaskArgs K) (hp : Admissible p) {i j k : Nat}
    (h : InVol p i j k) : ∀ c ∈ depthCells p (p.depth / 2) i j k, WorkIn p.total c := by
  intro c hc
  obtain ⟨d, hd, rfl⟩ := List.mem_map.1 hc
  rw [mem_intRange] at hd
  obtain ⟨h1, h2, h3, h4, h5, h6⟩ := h
  obtain ⟨_, _, hl, _⟩ := hp
  rw [refl_eq_mirror]
  obtain ⟨a, b⟩ := mirror_bounds h3 h4 hd.1 hd.2 (by omega)
  exact at_in p ⟨h1, h2, a, b, h5, h6⟩

theorem leftCells_in (p : MaskArgs K) (hp : Admissible p) {i j k : Nat}
    (h : InVol p i j k) : ∀ c ∈ leftCells p i j k, WorkIn p.total c := by
  intro c hc
  obtain ⟨d, hd, rfl⟩ := List.mem_map.1 hc
  rw [mem_intRange] at hd
  obtain ⟨h1, h2, h3, h4, h5, h6⟩ := h
  obtain ⟨_, _, _, _, hl, _⟩ := hp
  obtain ⟨a, b⟩ := reflLo_bounds h1 h2 hd.1 hd.2 (by omega)
  exact at_in p ⟨a, b, h3, h4, h5, h6⟩

theorem rightCells_in (p : MaskArgs K) (hp : Admissible p) {i j k : Nat}
    (h : InVol p i j k) : ∀ c ∈ rightCells p i j k, WorkIn p.total c := by
  intro c hc
  obtain ⟨d, hd, rfl⟩ := List.mem_map.1 hc
  rw [mem_intRange] at hd
  obtain ⟨h1, h2, h3, h4, h5, h6⟩ := h
  obtain ⟨_, _, _, _, hl, _⟩ := hp
  obtain ⟨a, b⟩ := reflHi_bounds h1 h2 hd.1 hd.2 (by omega)
  exact at_in p ⟨a, b, h3, h4, h5, h6⟩

theorem upCells_in (p : MaskArgs K) (hw : 4 * p.width ≤ p.dZ) {i j k : Nat}
    (h : InVol p i j k) : ∀ c ∈ upCells p i j k, WorkIn p.total c := by
  intro c hc
  obtain ⟨d, hd, rfl⟩ := List.mem_map.1 hc
  rw [mem_intRange] at hd
  obtain ⟨h1, h2, h3, h4, h5, h6⟩ := h
  obtain ⟨a, b⟩ := reflLo_bounds h5 h6 hd.1 hd.2 (by omega)
  exact at_in p ⟨h1, h2, h3, h4, a, b⟩

theorem downCells_in (p : MaskArgs K) (hw : 4 * p.width ≤ p.dZ) {i j k : Nat}
    (h : InVol p i j k) : ∀ c ∈ downCells p i j k, WorkIn p.total c := by
  intro c hc
  obtain ⟨d, hd, rfl⟩ := List.mem_map.1 hc
  rw [mem_intRange] at hd
  obtain ⟨h1, h2, h3, h4, h5, h6⟩ := h
  obtain ⟨a, b⟩ := reflHi_bounds h5 h6 hd.1 hd.2 (by omega)
  exact at_in p ⟨h1, h2, h3, h4, a, b⟩

theorem inVol_of_in {p : MaskArgs K} {i j k : Nat} (h : In p.dX p.dY p.dZ (i, j, k)) :
    InVol p i j k := by
  unfold In at h
  dsimp only at h
  exact ⟨by omega, by omega, by omega, by omega, by omega, by omega⟩

/-- Own cell of a voxel in `Output`. -/
abbrev ownOut (p : MaskArgs K) (v : Vox) : Cell := .out (idx p.dX p.dY v.1 v.2.1 v.2.2)

/-- Own cell of a voxel in `mask`. -/
abbrev ownWork (p : MaskArgs K) (v : Vox) : Cell := .work (idx p.dX p.dY v.1 v.2.1 v.2.2)

theorem thresh_own (p : MaskArgs K) (v : Vox) (hv : In p.dX p.dY p.dZ v) :
    OwnCell (fun l => ∃ a, 0 ≤ a ∧ a < (p.total : Int) ∧ l = .input a) (ownWork p)
      (threshBody p) v := by
  obtain ⟨i, j, k⟩ := v
  obtain ⟨h1, h2, h3, h4, h5, h6⟩ := inVol_of_in hv
  obtain ⟨a, b⟩ := idx_bounds h1 h2 h3 h4 h5 h6
  exact ⟨Or.inl ⟨_, a, b, rfl⟩, fun w => ⟨rfl, trivial⟩⟩

theorem depth_own (p : MaskArgs K) (hp : Admissible p) (v : Vox) (hv : In p.dX p.dY p.dZ v) :
    OwnCell (WorkIn p.total) (ownOut p) (depthBody p) v := by
  obtain ⟨i, j, k⟩ := v
  have hin := inVol_of_in hv
  refine ⟨Or.inl (at_in p hin), fun x => ?_⟩
  dsimp only
  split
  · split
    · refine within_readAll _ _ (fun l hl => Or.inl (depthCells_in p hp hin l hl)) ?_
      intro vs _
      split
      · exact ⟨rfl, trivial⟩
      · trivial
    · trivial
  · trivial

theorem length_own (p : MaskArgs K) (hp : Admissible p) (v : Vox) (hv : In p.dX p.dY p.dZ v) :
    OwnCell (WorkIn p.total) (ownOut p) (lengthBody p) v := by
  obtain ⟨i, j, k⟩ := v
  have hin := inVol_of_in hv
  refine ⟨Or.inl (at_in p hin), fun x => ?_⟩
  dsimp only
  split
  · refine within_readAll _ _ (fun l hl => Or.inl (vertCells_in p hp hin l hl)) ?_
    intro vs _
    split
    · exact ⟨rfl, trivial⟩
    · trivial
  · trivial

theorem short_own (p : MaskArgs K) (hp : Admissible p) (v : Vox) (hv : In p.dX p.dY p.dZ v) :
    OwnCell (WorkIn p.total) (ownOut p) (shortBody p) v := by
  obtain ⟨i, j, k⟩ := v
  have hin := inVol_of_in hv
  refine ⟨Or.inl (at_in p hin), fun x => ?_⟩
  dsimp only
  split
  · refine within_readAll _ _ (fun l hl => Or.inl (vertCells_in p hp hin l hl)) ?_
    intro vs _
    split
    · exact ⟨rfl, trivial⟩
    · trivial
  · trivial

theorem merge_own (p : MaskArgs K) (hp : Admissible p) (hw : 4 * p.width ≤ p.dZ) (v : Vox)
    (hv : In p.dX p.dY p.dZ v) : OwnCell (WorkIn p.total) (ownOut p) (mergeBody p) v := by
  obtain ⟨i, j, k⟩ := v
  have hin := inVol_of_in hv
  have hvert : (mergeVert p i j k).Within (fun l => WorkIn p.total l ∨ l = ownOut p (i, j, k))
      (fun l => l = ownOut p (i, j, k)) := by
    refine ⟨Or.inr rfl, fun o => ?_⟩
    dsimp only
    split
    · refine within_anySet _ (fun l hl => Or.inl (upCells_in p hw hin l hl)) _ fun u => ?_
      refine within_anySet _ (fun l hl => Or.inl (downCells_in p hw hin l hl)) _ fun d => ?_
      split
      · exact ⟨rfl, trivial⟩
      · trivial
    · trivial
  refine ⟨Or.inl (at_in p hin), fun x => ?_⟩
  dsimp only
  split
  · refine within_anySet _ (fun l hl => Or.inl (leftCells_in p hp hin l hl)) _ fun u => ?_
    refine within_anySet _ (fun l hl => Or.inl (rightCells_in p hp hin l hl)) _ fun d => ?_
    split
    · exact ⟨rfl, hvert⟩
    · exact hvert
  · trivial

/-! ### Values -/

open Classical in
theorem countSet_map (m : Cell → K) (a b : Int) (f : Int → Cell) (q : Int → Prop)
    (h : ∀ d, a ≤ d → d ≤ b → (m (f d) ≠ 0 ↔ q d)) :
    countSet (((intRange a b).map f).map m) = ((Finset.Icc a b).filter q).card := by
  unfold countSet
  rw [List.map_map, List.countP_map, ← countP_intRange a b q]
  congr 1
  refine List.countP_congr fun d hd => ?_
  rw [mem_intRange] at hd
  simp only [Function.comp, decide_eq_true_eq]
  exact h d hd.1 hd.2

theorem count_vert (p : MaskArgs K) (hp : Admissible p) {S : Mask} {m : Cell → K}
    (hS : Rep p .work S m) {i j k : Nat} (h : InVol p i j k) :
    countSet ((vertCells p (p.length / 2) i j k).map m)
      = vertCount p.dZ (p.length / 2) S i j k := by
  obtain ⟨h1, h2, h3, h4, h5, h6⟩ := h
  obtain ⟨_, hl, _⟩ := hp
  refine countSet_map m _ _ _ _ fun d hd hd' => ?_
  rw [refl_eq_mirror]
  obtain ⟨a, b⟩ := mirror_bounds (h := p.length / 2) h5 h6 hd hd' (by omega)
  exact hS _ _ _ ⟨h1, h2, h3, h4, a, b⟩

theorem count_depth (p : MaskArgs K) (hp : Admissible p) {S : Mask} {m : Cell → K}
    (hS : Rep p .work S m) {i j k : Nat} (h : InVol p i j k) :
    countSet ((depthCells p (p.depth / 2) i j k).map m)
      = depthCount p.dY (p.depth / 2) S i j k := by
  obtain ⟨h1, h2, h3, h4, h5, h6⟩ := h
  obtain ⟨_, _, hl, _⟩ := hp
  refine countSet_map m _ _ _ _ fun d hd hd' => ?_
  rw [refl_eq_mirror]
  obtain ⟨a, b⟩ := mirror_bounds (h := p.depth / 2) h3 h4 hd hd' (by omega)
  exact hS _ _ _ ⟨h1, h2, a, b, h5, h6⟩

theorem vox_of_inVol {p : MaskArgs K} {i j k : Int} (h : InVol p i j k) :
    ∃ v : Vox, In p.dX p.dY p.dZ v ∧ (v.1 : Int) = i ∧ (v.2.1 : Int) = j ∧ (v.2.2 : Int) = k := by
  obtain ⟨h1, h2, h3, h4, h5, h6⟩ := h
  exact ⟨(i.toNat, j.toNat, k.toNat), ⟨by dsimp only; omega, by dsimp only; omega,
    by dsimp only; omega⟩, by dsimp only; omega, by dsimp only; omega, by dsimp only; omega⟩

theorem out_inj : Function.Injective Cell.out := fun a b h => by injection h
theorem work_inj : Function.Injective Cell.work := fun a b h => by injection h

/-- One clean-up or merging stage, given what the body does to its own cell. -/
theorem stage (p : MaskArgs K) {body : Vox → Prog Cell K}
    (hb : ∀ v, In p.dX p.dY p.dZ v → OwnCell (WorkIn p.total) (ownOut p) body v)
    {S' : Mask} {m m' : Cell → K}
    (hval : ∀ v, In p.dX p.dY p.dZ v →
      ((body v).run m (ownOut p v) ≠ 0 ↔ S' v.1 v.2.1 v.2.2))
    (h : Loop p.dX p.dY p.dZ body m m') :
    Rep p .out S' m' ∧ ∀ a, m' (.input a) = m (.input a) := by
  obtain ⟨h1, h2⟩ := loop_final out_inj (by rintro a ⟨b, _, _, e⟩; cases e) hb h
  constructor
  · intro i j k hin
    obtain ⟨v, hv, rfl, rfl, rfl⟩ := vox_of_inVol hin
    rw [h1 v hv]
    exact hval v hv
  · intro a
    exact h2 _ fun v _ e => by cases e

theorem copyToMask_rep {p : MaskArgs K} {S : Mask} {m : Cell → K} (h : Rep p .out S m) :
    Rep p .out S (copyToMask p.total m) ∧ Rep p .work S (copyToMask p.total m) := by
  refine ⟨h, fun i j k hin => ?_⟩
  obtain ⟨h1, h2, h3, h4, h5, h6⟩ := id hin
  have : 0 ≤ idx p.dX p.dY i j k ∧ idx p.dX p.dY i j k < (p.total : Int) :=
    idx_bounds h1 h2 h3 h4 h5 h6
  show (if _ then _ else _) ≠ (0 : K) ↔ _
  rw [if_pos this]
  exact h i j k hin

theorem depth_stage (p : MaskArgs K) (hp : Admissible p) {S : Mask} {m m' : Cell → K}
    (hw : Rep p .work S m) (ho : Rep p .out S m)
    (h : Loop p.dX p.dY p.dZ (depthBody p) m m') :
    Rep p .out (NotDeep p S) m' ∧ ∀ a, m' (.input a) = m (.input a) := by
  refine stage p (depth_own p hp) ?_ h
  rintro ⟨i, j, k⟩ hv
  have hin := inVol_of_in hv
  have e1 := hw i j k hin
  have e2 := ho i j k hin
  have e3 := count_depth p hp hw hin
  dsimp only [ownOut]
  rw [depthBody, Prog.run]
  unfold NotDeep
  by_cases hx : m (p.at i j k) ≠ 0
  · rw [if_pos hx]
    have hS := e1.1 hx
    by_cases hd : p.depth ≠ 0
    · rw [if_pos hd, run_readAll, e3]
      by_cases hc : (depthCount p.dY (p.depth / 2) S i j k : Int) > percent p p.depth
      · rw [if_pos hc]
        simp only [Prog.run, upd, if_true, ne_eq, not_true, false_iff]
        rintro ⟨_, h | h⟩
        · exact hd h
        · exact absurd hc (not_lt.2 h)
      · rw [if_neg hc]
        simp only [Prog.run]
        exact e2.trans ⟨fun h => ⟨h, Or.inr (not_lt.1 hc)⟩, fun h => h.1⟩
    · rw [if_neg hd]
      exact e2.trans ⟨fun h => ⟨h, Or.inl (not_not.1 hd)⟩, fun h => h.1⟩
  · rw [if_neg hx]
    have hS : ¬ S i j k := fun h => hx (e1.2 h)
    exact e2.trans ⟨fun h => absurd h hS, fun h => h.1⟩

theorem length_stage (p : MaskArgs K) (hp : Admissible p) {S : Mask} {m m' : Cell → K}
    (hw : Rep p .work S m) (ho : Rep p .out S m)
    (h : Loop p.dX p.dY p.dZ (lengthBody p) m m') :
    Rep p .out (LongEnough p S) m' ∧ ∀ a, m' (.input a) = m (.input a) := by
  refine stage p (length_own p hp) ?_ h
  rintro ⟨i, j, k⟩ hv
  have hin := inVol_of_in hv
  have e1 := hw i j k hin
  have e2 := ho i j k hin
  have e3 := count_vert p hp hw hin
  dsimp only [ownOut]
  rw [lengthBody, Prog.run]
  unfold LongEnough
  by_cases hx : m (p.at i j k) ≠ 0
  · rw [if_pos hx, run_readAll, e3]
    by_cases hc : (vertCount p.dZ (p.length / 2) S i j k : Int) < percent p p.length
    · rw [if_pos hc]
      simp only [Prog.run, upd, if_true, ne_eq, not_true, false_iff]
      rintro ⟨_, h⟩
      exact absurd hc (not_lt.2 h)
    · rw [if_neg hc]
      simp only [Prog.run]
      exact e2.trans ⟨fun h => ⟨h, not_lt.1 hc⟩, fun h => h.1⟩
  · rw [if_neg hx]
    have hS : ¬ S i j k := fun h => hx (e1.2 h)
    exact e2.trans ⟨fun h => absurd h hS, fun h => h.1⟩

theorem short_stage (p : MaskArgs K) (hp : Admissible p) {S : Mask} {m m' : Cell → K}
    (hw : Rep p .work S m) (ho : Rep p .out S m)
    (h : Loop p.dX p.dY p.dZ (shortBody p) m m') :
    Rep p .out (NotShort p S) m' ∧ ∀ a, m' (.input a) = m (.input a) := by
  refine stage p (short_own p hp) ?_ h
  rintro ⟨i, j, k⟩ hv
  have hin := inVol_of_in hv
  have e1 := hw i j k hin
  have e2 := ho i j k hin
  have e3 := count_vert p hp hw hin
  dsimp only [ownOut]
  rw [shortBody, Prog.run]
  unfold NotShort
  by_cases hx : m (p.at i j k) ≠ 0
  · rw [if_pos hx, run_readAll, e3]
    by_cases hc : (vertCount p.dZ (p.length / 2) S i j k : Int) < (p.length / 2 : Nat)
    · rw [if_pos hc]
      simp only [Prog.run, upd, if_true, ne_eq, not_true, false_iff]
      rintro ⟨_, h⟩
      omega
    · rw [if_neg hc]
      simp only [Prog.run]
      exact e2.trans ⟨fun h => ⟨h, by omega⟩, fun h => h.1⟩
  · rw [if_neg hx]
    have hS : ¬ S i j k := fun h => hx (e1.2 h)
    exact e2.trans ⟨fun h => absurd h hS, fun h => h.1⟩

theorem left_iff (p : MaskArgs K) (hp : Admissible p) {S : Mask} {m : Cell → K}
    (hw : Rep p .work S m) {i j k : Nat} (hin : InVol p i j k) :
    (∃ c ∈ leftCells p i j k, m c ≠ 0) ↔
      ∃ d : Nat, d ≤ p.width / 2 ∧ S (if 0 ≤ (i : Int) - d then (i : Int) - d else i + d) j k := by
  obtain ⟨h1, h2, h3, h4, h5, h6⟩ := hin
  obtain ⟨_, _, _, _, hl, _⟩ := hp
  unfold leftCells
  rw [exists_cells]
  constructor
  · rintro ⟨d, hd, hd', h⟩
    obtain ⟨a, b⟩ := reflLo_bounds (h := p.width / 2) h1 h2 hd hd' (by omega)
    have := (hw _ _ _ ⟨a, b, h3, h4, h5, h6⟩).1 h
    refine ⟨(-d).toNat, by omega, ?_⟩
    unfold reflLo at this
    split at this
    · rw [if_neg (by omega)]
      rwa [show (i : Int) + ((-d).toNat : Int) = i - d by omega]
    · rw [if_pos (by omega)]
      rwa [show (i : Int) - ((-d).toNat : Int) = i + d by omega]
  · rintro ⟨d, hd, h⟩
    refine ⟨-(d : Int), by omega, by omega, ?_⟩
    obtain ⟨a, b⟩ := reflLo_bounds (h := p.width / 2) (d := -(d : Int)) h1 h2 (by omega) (by omega)
      (by omega)
    refine (hw _ _ _ ⟨a, b, h3, h4, h5, h6⟩).2 ?_
    unfold reflLo
    split at h
    · rw [if_neg (by omega)]
      rwa [show (i : Int) + -(d : Int) = i - d by omega]
    · rw [if_pos (by omega)]
      rwa [show (i : Int) - -(d : Int) = i + d by omega]

theorem right_iff (p : MaskArgs K) (hp : Admissible p) {S : Mask} {m : Cell → K}
    (hw : Rep p .work S m) {i j k : Nat} (hin : InVol p i j k) :
    (∃ c ∈ rightCells p i j k, m c ≠ 0) ↔
      ∃ d : Nat, d ≤ p.width / 2 ∧ S (if (i : Int) + d < p.dX then (i : Int) + d else i - d) j k := by
  obtain ⟨h1, h2, h3, h4, h5, h6⟩ := hin
  obtain ⟨_, _, _, _, hl, _⟩ := hp
  unfold rightCells
  rw [exists_cells]
  constructor
  · rintro ⟨d, hd, hd', h⟩
    obtain ⟨a, b⟩ := reflHi_bounds (h := p.width / 2) h1 h2 hd hd' (by omega)
    have := (hw _ _ _ ⟨a, b, h3, h4, h5, h6⟩).1 h
    refine ⟨d.toNat, by omega, ?_⟩
    unfold reflHi at this
    rw [show (d.toNat : Int) = d by omega]
    split at this
    · rw [if_neg (by omega)]; exact this
    · rw [if_pos (by omega)]; exact this
  · rintro ⟨d, hd, h⟩
    refine ⟨(d : Int), by omega, by omega, ?_⟩
    obtain ⟨a, b⟩ := reflHi_bounds (h := p.width / 2) (d := (d : Int)) h1 h2 (by omega) (by omega)
      (by omega)
    refine (hw _ _ _ ⟨a, b, h3, h4, h5, h6⟩).2 ?_
    unfold reflHi
    split at h
    · rw [if_neg (by omega)]; exact h
    · rw [if_pos (by omega)]; exact h

theorem up_iff (p : MaskArgs K) (h4w : 4 * p.width ≤ p.dZ) {S : Mask} {m : Cell → K}
    (hw : Rep p .work S m) {i j k : Nat} (hin : InVol p i j k) :
    (∃ c ∈ upCells p i j k, m c ≠ 0) ↔
      ∃ d : Nat, d ≤ 2 * p.width ∧ S i j (if 0 ≤ (k : Int) - d then (k : Int) - d else k + d) := by
  obtain ⟨h1, h2, h3, h4, h5, h6⟩ := hin
  unfold upCells
  rw [exists_cells]
  constructor
  · rintro ⟨d, hd, hd', h⟩
    obtain ⟨a, b⟩ := reflLo_bounds (h := 2 * p.width) h5 h6 hd hd' (by omega)
    have := (hw _ _ _ ⟨h1, h2, h3, h4, a, b⟩).1 h
    refine ⟨(-d).toNat, by omega, ?_⟩
    unfold reflLo at this
    split at this
    · rw [if_neg (by omega)]
      rwa [show (k : Int) + ((-d).toNat : Int) = k - d by omega]
    · rw [if_pos (by omega)]
      rwa [show (k : Int) - ((-d).toNat : Int) = k + d by omega]
  · rintro ⟨d, hd, h⟩
    refine ⟨-(d : Int), by omega, by omega, ?_⟩
    obtain ⟨a, b⟩ := reflLo_bounds (h := 2 * p.width) (d := -(d : Int)) h5 h6 (by omega) (by omega)
      (by omega)
    refine (hw _ _ _ ⟨h1, h2, h3, h4, a, b⟩).2 ?_
    unfold reflLo
    split at h
    · rw [if_neg (by omega)]
      rwa [show (k : Int) + -(d : Int) = k - d by omega]
    · rw [if_pos (by omega)]
      rwa [show (k : Int) - -(d : Int) = k + d by omega]

theorem down_iff (p : MaskArgs K) (h4w : 4 * p.width ≤ p.dZ) {S : Mask} {m : Cell → K}
    (hw : Rep p .work S m) {i j k : Nat} (hin : InVol p i j k) :
    (∃ c ∈ downCells p i j k, m c ≠ 0) ↔
      ∃ d : Nat, d ≤ 2 * p.width ∧ S i j (if (k : Int) + d < p.dZ then (k : Int) + d else k - d) := by
  obtain ⟨h1, h2, h3, h4, h5, h6⟩ := hin
  unfold downCells
  rw [exists_cells]
  constructor
  · rintro ⟨d, hd, hd', h⟩
    obtain ⟨a, b⟩ := reflHi_bounds (h := 2 * p.width) h5 h6 hd hd' (by omega)
    have := (hw _ _ _ ⟨h1, h2, h3, h4, a, b⟩).1 h
    refine ⟨d.toNat, by omega, ?_⟩
    unfold reflHi at this
    rw [show (d.toNat : Int) = d by omega]
    split at this
    · rw [if_neg (by omega)]; exact this
    · rw [if_pos (by omega)]; exact this
  · rintro ⟨d, hd, h⟩
    refine ⟨(d : Int), by omega, by omega, ?_⟩
    obtain ⟨a, b⟩ := reflHi_bounds (h := 2 * p.width) (d := (d : Int)) h5 h6 (by omega) (by omega)
      (by omega)
    refine (hw _ _ _ ⟨h1, h2, h3, h4, a, b⟩).2 ?_
    unfold reflHi
    split at h
    · rw [if_neg (by omega)]; exact h
    · rw [if_pos (by omega)]; exact h

theorem merge_stage (p : MaskArgs K) (hp : Admissible p) (h4w : 4 * p.width ≤ p.dZ) {S : Mask}
    {m m' : Cell → K} (hw : Rep p .work S m) (ho : Rep p .out S m)
    (h : Loop p.dX p.dY p.dZ (mergeBody p) m m') :
    Rep p .out (Merged p S) m' ∧ ∀ a, m' (.input a) = m (.input a) := by
  classical
  refine stage p (merge_own p hp h4w) ?_ h
  rintro ⟨i, j, k⟩ hv
  have hin := inVol_of_in hv
  have e1 := hw i j k hin
  have e2 := ho i j k hin
  dsimp only [ownOut]
  -- the vertical part, for any memory with the same work array
  have vert : ∀ mm : Cell → K, (∀ a, mm (.work a) = m (.work a)) →
      ((mergeVert p i j k).run mm (.out (idx p.dX p.dY i j k)) ≠ 0 ↔
        mm (.out (idx p.dX p.dY i j k)) ≠ 0 ∨
        ((∃ c ∈ upCells p i j k, m c ≠ 0) ∧ (∃ c ∈ downCells p i j k, m c ≠ 0))) := by
    intro mm hmm
    have cells : ∀ cs : List Cell, (∀ c ∈ cs, WorkIn p.total c) →
        ((∃ c ∈ cs, mm c ≠ 0) ↔ ∃ c ∈ cs, m c ≠ 0) := by
      intro cs hcs
      constructor
      · rintro ⟨c, hc, h⟩
        obtain ⟨a, _, _, rfl⟩ := hcs c hc
        exact ⟨_, hc, by rwa [← hmm]⟩
      · rintro ⟨c, hc, h⟩
        obtain ⟨a, _, _, rfl⟩ := hcs c hc
        exact ⟨_, hc, by rwa [hmm]⟩
    rw [mergeVert, Prog.run]
    by_cases hoz : mm (.out (idx p.dX p.dY i j k)) = 0
    · rw [if_pos hoz, run_anySet, run_anySet]
      simp only [cells _ (upCells_in p h4w hin), cells _ (downCells_in p h4w hin)]
      by_cases hu : ∃ c ∈ upCells p i j k, m c ≠ 0
      · by_cases hd : ∃ c ∈ downCells p i j k, m c ≠ 0
        · simp [hu, hd, Prog.run, upd]
        · simp [hd, Prog.run, hoz]
      · simp [hu, Prog.run, hoz]
    · rw [if_neg hoz]
      simp [Prog.run, hoz]
  rw [mergeBody, Prog.run]
  unfold Merged
  by_cases hx : m (p.at i j k) = 0
  · have hS : ¬ S i j k := fun h => (e1.2 h) hx
    have hoz : m (.out (idx p.dX p.dY i j k)) = 0 := not_not.1 fun h => hS (e2.1 h)
    rw [if_pos hx, run_anySet, run_anySet]
    simp only [left_iff p hp hw hin, right_iff p hp hw hin]
    rw [← up_iff p h4w hw hin, ← down_iff p h4w hw hin]
    by_cases hl : ∃ d : Nat, d ≤ p.width / 2 ∧
        S (if 0 ≤ (i : Int) - d then (i : Int) - d else i + d) j k
    · by_cases hr : ∃ d : Nat, d ≤ p.width / 2 ∧
          S (if (i : Int) + d < p.dX then (i : Int) + d else i - d) j k
      · simp only [hl, hr, decide_true, Bool.and_self, if_true, Prog.run]
        rw [vert _ (fun a => by simp [upd])]
        simp [upd]
      · simp only [hr, decide_false, Bool.and_false, Bool.false_eq_true, if_false]
        rw [vert m fun _ => rfl]
        simp [hoz, hS]
    · simp only [hl, decide_false, Bool.false_and, Bool.false_eq_true, if_false]
      rw [vert m fun _ => rfl]
      simp [hoz, hS]
  · rw [if_neg hx]
    simp only [Prog.run]
    have := e1.1 hx
    exact ⟨fun _ => Or.inl this, fun _ => e2.2 this⟩

theorem thresh_stage (p : MaskArgs K) {m m' : Cell → K} (W : Int → Int → Int → K)
    (hW : ∀ i j k, InVol p i j k → m (.input (idx p.dX p.dY i j k)) = W i j k)
    (h : Loop p.dX p.dY p.dZ (threshBody p) m m') :
    Rep p .work (Below p W) m' ∧ ∀ a, m' (.input a) = m (.input a) := by
  obtain ⟨h1, h2⟩ := loop_final work_inj (by rintro a ⟨b, _, _, e⟩; cases e) (thresh_own p) h
  constructor
  · intro i j k hin
    obtain ⟨v, hv, rfl, rfl, rfl⟩ := vox_of_inVol hin
    rw [h1 v hv]
    obtain ⟨i, j, k⟩ := v
    simp only [threshBody, Prog.run, MaskArgs.at, upd, if_true, hW _ _ _ hin, Below]
    split <;> simp_all
  · intro a
    exact h2 _ fun v _ e => by cases e

theorem clean_run (p : MaskArgs K) (hp : Admissible p) {m m' : Cell → K} (W : Int → Int → Int → K)
    (hW : ∀ i j k, InVol p i j k → m (.input (idx p.dX p.dY i j k)) = W i j k)
    (h : CleanRun p m m') :
    Rep p .work (Cleaned p W) m' ∧ Rep p .out (Cleaned p W) m' ∧
    ∀ a, m' (.input a) = m (.input a) := by
  obtain ⟨m1, m2, m3, m4, l1, l2, l3, l4, rfl⟩ := h
  obtain ⟨a1, b1⟩ := thresh_stage p W hW l1
  have a1' : Rep p .out (Below p W) (copyToOut p.total m1) := by
    intro i j k hin
    obtain ⟨h1, h2, h3, h4, h5, h6⟩ := id hin
    have : 0 ≤ idx p.dX p.dY i j k ∧ idx p.dX p.dY i j k < (p.total : Int) :=
      idx_bounds h1 h2 h3 h4 h5 h6
    show (if _ then _ else _) ≠ (0 : K) ↔ _
    rw [if_pos this]
    exact a1 i j k hin
  obtain ⟨a2, b2⟩ := depth_stage p hp (S := Below p W) (m := copyToOut p.total m1) a1 a1' l2
  obtain ⟨c2, d2⟩ := copyToMask_rep a2
  obtain ⟨a3, b3⟩ := length_stage p hp d2 c2 l3
  obtain ⟨c3, d3⟩ := copyToMask_rep a3
  obtain ⟨a4, b4⟩ := short_stage p hp d3 c3 l4
  obtain ⟨c4, d4⟩ := copyToMask_rep a4
  refine ⟨d4, c4, fun a => ?_⟩
  calc m4 (.input a) = m3 (.input a) := b4 a
    _ = m2 (.input a) := b3 a
    _ = m1 (.input a) := b2 a
    _ = m (.input a) := b1 a

theorem merge_run (p : MaskArgs K) (hp : Admissible p) (h4w : 4 * p.width ≤ p.dZ) (n : Nat) :
    ∀ {S : Mask} {m m' : Cell → K}, Rep p .work S m → Rep p .out S m → MergeRun p n m m' →
      Rep p .out ((Merged p)^[n] S) m' ∧ ∀ a, m' (.input a) = m (.input a) := by
  induction n with
  | zero => rintro S m m' _ ho rfl; exact ⟨ho, fun _ => rfl⟩
  | succ n ih =>
    rintro S m m' hw ho ⟨m1, h1, h2⟩
    obtain ⟨a, b⟩ := merge_stage p hp h4w hw ho h1
    obtain ⟨c, d⟩ := copyToMask_rep a
    obtain ⟨e, f⟩ := ih d c h2
    exact ⟨e, fun x => (f x).trans (b x)⟩

/-! ### C42 -/

/-- **C42** `stripes_mask3d` accepts exactly the documented parameters. -/
theorem mask_args_checked (shape : List Nat) (thr : K) (length depth width : Int) (sens : K) :
    (∃ p, maskArgs shape thr length depth width sens = .ok p) ↔
      ∃ dz dy dx, shape = [dz, dy, dx] ∧ 0 < dz ∧ 0 < dy ∧ 0 < dx ∧ 0 < length ∧ length < dz ∧
        0 ≤ depth ∧ depth < dy ∧ 0 < width ∧ width < dx ∧ 0 < sens ∧ sens ≤ 100 := by
  constructor
  · rintro ⟨p, h⟩
    unfold maskArgs at h
    split at h
    · rename_i dz dy dx
      split at h; · cases h
      split at h; · cases h
      split at h; · cases h
      split at h; · cases h
      split at h
      · exact ⟨dz, dy, dx, rfl, by omega, by omega, by omega, by omega, by omega, by omega,
          by omega, by omega, by omega, by tauto⟩
      · cases h
    · cases h
  · rintro ⟨dz, dy, dx, rfl, h1, h2, h3, h4, h5, h6, h7, h8, h9, h10, h11⟩
    refine ⟨⟨dx, dy, dz, thr, length.toNat, depth.toNat, width.toNat, sens⟩, ?_⟩
    unfold maskArgs
    dsimp only
    rw [if_neg (by omega), if_neg (by omega), if_neg (by omega), if_neg (by omega),
      if_pos ⟨h10, h11⟩]

/-- **C42** What the C code is called with when the checks pass. -/
theorem mask_args_ok (shape : List Nat) (thr : K) (length depth width : Int) (sens : K)
    (p : MaskArgs K) (h : maskArgs shape thr length depth width sens = .ok p) :
    Admissible p ∧ shape = [p.dZ, p.dY, p.dX] ∧ p.threshold = thr ∧ p.sensitivity = sens ∧
      (p.length : Int) = length ∧ (p.depth : Int) = depth ∧ (p.width : Int) = width := by
  unfold maskArgs at h
  split at h
  · rename_i dz dy dx
    split at h; · cases h
    split at h; · cases h
    split at h; · cases h
    split at h; · cases h
    split at h
    · rename_i h5
      cases h
      exact ⟨⟨by dsimp only; omega, by dsimp only; omega, by dsimp only; omega,
        by dsimp only; omega, by dsimp only; omega, h5.1, h5.2⟩, rfl, rfl, rfl,
        by dsimp only; omega, by dsimp only; omega, by dsimp only; omega⟩
    · cases h
  · cases h

/-- **C42** With admissible parameters every access of every loop body is inside the arrays,
whatever values are read, provided the number of angles is at least four times the width.
(`_partial`: the checks do not enforce the last condition; without it the claim is false, see
`mask_out_of_bounds`.) -/
theorem mask_in_bounds_partial (p : MaskArgs K) (hp : Admissible p) (hw : 4 * p.width ≤ p.dZ)
    (i j k : Nat) (hi : i < p.dX) (hj : j < p.dY) (hk : k < p.dZ) :
    ∀ body ∈ [threshBody p, depthBody p, lengthBody p, shortBody p, mergeBody p],
      (body (i, j, k)).Within (CellIn (p.dX * p.dY * p.dZ)) (CellIn (p.dX * p.dY * p.dZ)) := by
  have hv : In p.dX p.dY p.dZ (i, j, k) := ⟨hi, hj, hk⟩
  obtain ⟨h1, h2, h3, h4, h5, h6⟩ := inVol_of_in hv
  have hb := idx_bounds h1 h2 h3 h4 h5 h6
  have key : ∀ body : Vox → Prog Cell K, OwnCell (WorkIn p.total) (ownOut p) body (i, j, k) →
      (body (i, j, k)).Within (CellIn (p.dX * p.dY * p.dZ)) (CellIn (p.dX * p.dY * p.dZ)) := by
    intro body h
    refine within_weaken h ?_ ?_
    · rintro l (⟨a, h1, h2, rfl⟩ | rfl)
      · exact ⟨h1, h2⟩
      · exact hb
    · rintro l rfl
      exact hb
  intro body hbody
  simp only [List.mem_cons, List.not_mem_nil, or_false] at hbody
  rcases hbody with rfl | rfl | rfl | rfl | rfl
  · refine within_weaken (thresh_own p (i, j, k) hv) ?_ ?_
    · rintro l (⟨a, h1, h2, rfl⟩ | rfl)
      · exact ⟨h1, h2⟩
      · exact hb
    · rintro l rfl
      exact hb
  · exact key _ (depth_own p hp _ hv)
  · exact key _ (length_own p hp _ hv)
  · exact key _ (short_own p hp _ hv)
  · exact key _ (merge_own p hp hw _ hv)

/-- **C42** For every execution (schedule of the parallel loops) the result is the mask given by
the specification, and the weights are not changed.  (`_partial`: needs the number of angles to be
at least four times the width, as above.) -/
theorem mask_result_partial (p : MaskArgs K) (hp : Admissible p) (hw : 4 * p.width ≤ p.dZ)
    (m m' : Cell → K) (W : Int → Int → Int → K)
    (hW : ∀ i j k, InVol p i j k → m (.input (idx p.dX p.dY i j k)) = W i j k)
    (h : MaskRun p m m') :
    (∀ a, m' (.input a) = m (.input a)) ∧
    ∀ i j k, InVol p i j k →
      (m' (.out (p.dX * p.dY * k + j * p.dX + i)) ≠ 0 ↔ FinalMask p W i j k) := by
  obtain ⟨m1, h1, h2⟩ := h
  obtain ⟨a, b, c⟩ := clean_run p hp W hW h1
  obtain ⟨d, e⟩ := merge_run p hp hw p.width a b h2
  exact ⟨fun x => (e x).trans (c x), d⟩

theorem merged_ge (p : MaskArgs K) (n : Nat) :
    ∀ {S : Mask} {i j k : Int}, S i j k → (Merged p)^[n] S i j k := by
  induction n with
  | zero => intro S i j k h; exact h
  | succ n ih => intro S i j k h; exact ih (S := Merged p S) (Or.inl h)

/-- **C42** The clean-up stages never set a voxel that is above the threshold (whatever the
schedule and for all admissible parameters). -/
theorem clean_only_removes (p : MaskArgs K) (hp : Admissible p) (m m1 : Cell → K)
    (h : CleanRun p m m1) (i j k : Int) (hin : InVol p i j k)
    (hset : m1 (.out (p.dX * p.dY * k + j * p.dX + i)) ≠ 0) :
    m (.input (p.dX * p.dY * k + j * p.dX + i)) ≤ p.threshold := by
  obtain ⟨_, b, _⟩ := clean_run p hp (fun i j k => m (.input (idx p.dX p.dY i j k)))
    (fun _ _ _ _ => rfl) h
  exact ((b i j k hin).1 hset).1.1.1

/-- **C42** Merging never clears a voxel. -/
theorem merge_only_adds_partial (p : MaskArgs K) (hp : Admissible p) (hw : 4 * p.width ≤ p.dZ)
    (m m1 m' : Cell → K) (h : CleanRun p m m1) (n : Nat) (h' : MergeRun p n m1 m')
    (i j k : Int) (hin : InVol p i j k)
    (hset : m1 (.out (p.dX * p.dY * k + j * p.dX + i)) ≠ 0) :
    m' (.out (p.dX * p.dY * k + j * p.dX + i)) ≠ 0 := by
  obtain ⟨a, b, _⟩ := clean_run p hp (fun i j k => m (.input (idx p.dX p.dY i j k)))
    (fun _ _ _ _ => rfl) h
  obtain ⟨d, _⟩ := merge_run p hp hw n a b h'
  exact (d i j k hin).2 (merged_ge p n ((b i j k hin).1 hset))

/-- **C42** Two executions on the same weights give the same mask. -/
theorem mask_schedule_independent_partial (p : MaskArgs K) (hp : Admissible p)
    (hw : 4 * p.width ≤ p.dZ) (m m1 m2 : Cell → K) (h1 : MaskRun p m m1) (h2 : MaskRun p m m2)
    (i j k : Int) (hin : InVol p i j k) :
    m1 (.out (p.dX * p.dY * k + j * p.dX + i)) ≠ 0 ↔
      m2 (.out (p.dX * p.dY * k + j * p.dX + i)) ≠ 0 := by
  have e := fun m' h => (mask_result_partial p hp hw m m'
    (fun i j k => m (.input (idx p.dX p.dY i j k))) (fun _ _ _ _ => rfl) h).2 i j k hin
  exact (e m1 h1).trans (e m2 h2).symm

theorem merged_none (p : MaskArgs K) (n : Nat) (hp : Admissible p) (hw : 4 * p.width ≤ p.dZ) :
    ∀ {S : Mask}, (∀ i j k, InVol p i j k → ¬ S i j k) →
      ∀ i j k, InVol p i j k → ¬ (Merged p)^[n] S i j k := by
  induction n with
  | zero => intro S h; exact h
  | succ n ih =>
    intro S h
    refine ih (S := Merged p S) ?_
    rintro i j k hin (hs | ⟨⟨d, hd, hs⟩, _⟩ | ⟨⟨d, hd, hs⟩, _⟩)
    · exact h i j k hin hs
    · obtain ⟨h1, h2, h3, h4, h5, h6⟩ := hin
      obtain ⟨_, _, _, _, hl, _⟩ := hp
      refine h _ _ _ ⟨?_, ?_, h3, h4, h5, h6⟩ hs
      · split <;> omega
      · split <;> omega
    · obtain ⟨h1, h2, h3, h4, h5, h6⟩ := hin
      refine h _ _ _ ⟨h1, h2, h3, h4, ?_, ?_⟩ hs
      · split <;> omega
      · split <;> omega

/-- **C42** If no weight is at or below the threshold, the mask is empty: merging creates nothing
out of nothing. -/
theorem mask_empty_partial (p : MaskArgs K) (hp : Admissible p) (hw : 4 * p.width ≤ p.dZ)
    (m m' : Cell → K) (h : MaskRun p m m')
    (ha : ∀ i j k, InVol p i j k → p.threshold < m (.input (p.dX * p.dY * k + j * p.dX + i)))
    (i j k : Int) (hin : InVol p i j k) : m' (.out (p.dX * p.dY * k + j * p.dX + i)) = 0 := by
  have e := (mask_result_partial p hp hw m m'
    (fun i j k => m (.input (idx p.dX p.dY i j k))) (fun _ _ _ _ => rfl) h).2 i j k hin
  by_contra hne
  refine merged_none p p.width hp hw (S := Cleaned p _) ?_ i j k hin (e.1 hne)
  intro i j k hin hc
  exact absurd (ha i j k hin) (not_lt.2 hc.1.1.1)

/-- **C42** Executions exist. -/
theorem mask_run_exists (p : MaskArgs K) (m : Cell → K) : ∃ m', MaskRun p m m' := by
  obtain ⟨m1, h1⟩ := loop_exists p.dX p.dY p.dZ (threshBody p) m
  obtain ⟨m2, h2⟩ := loop_exists p.dX p.dY p.dZ (depthBody p) (copyToOut p.total m1)
  obtain ⟨m3, h3⟩ := loop_exists p.dX p.dY p.dZ (lengthBody p) (copyToMask p.total m2)
  obtain ⟨m4, h4⟩ := loop_exists p.dX p.dY p.dZ (shortBody p) (copyToMask p.total m3)
  have : ∀ n (m : Cell → K), ∃ m', MergeRun p n m m' := by
    intro n
    induction n with
    | zero => intro m; exact ⟨m, rfl⟩
    | succ n ih =>
      intro m
      obtain ⟨m1, h1⟩ := loop_exists p.dX p.dY p.dZ (mergeBody p) m
      obtain ⟨m', h'⟩ := ih (copyToMask p.total m1)
      exact ⟨m', m1, h1, h'⟩
  obtain ⟨m', h'⟩ := this p.width (copyToMask p.total m4)
  exact ⟨m', _, ⟨m1, m2, m3, m4, h1, h2, h3, h4, rfl⟩, h'⟩

/-- **C42** (refuted part) The checks let parameters through with which the vertical merging reads
outside the mask array: whenever the number of angles is less than four times the width, on every
volume without any weight below the threshold some voxel of the first merging round does. -/
theorem mask_out_of_bounds (p : MaskArgs K) (hp : Admissible p) (hw : p.dZ < 4 * p.width)
    (hY : 0 < p.dY) (m m1 : Cell → K) (h : CleanRun p m m1)
    (ha : ∀ i j k, InVol p i j k → p.threshold < m (.input (p.dX * p.dY * k + j * p.dX + i))) :
    ∃ v : Vox, In p.dX p.dY p.dZ v ∧ ∃ a : Int, (p.dX * p.dY * p.dZ : Nat) ≤ a ∧
      Cell.work a ∈ (mergeBody p v).reads m1 := by
  obtain ⟨hwr, hor, _⟩ := clean_run p hp (fun i j k => m (.input (idx p.dX p.dY i j k)))
    (fun _ _ _ _ => rfl) h
  have none : ∀ i j k, InVol p i j k → ¬ Cleaned p
      (fun i j k => m (.input (idx p.dX p.dY i j k))) i j k := by
    intro i j k hin hc
    exact absurd (ha i j k hin) (not_lt.2 hc.1.1.1)
  have hz : ∀ i j k, InVol p i j k → m1 (.work (idx p.dX p.dY i j k)) = 0 := fun i j k hin =>
    not_not.1 fun h => none i j k hin ((hwr i j k hin).1 h)
  have hzo : ∀ i j k, InVol p i j k → m1 (.out (idx p.dX p.dY i j k)) = 0 := fun i j k hin =>
    not_not.1 fun h => none i j k hin ((hor i j k hin).1 h)
  obtain ⟨hl, hl', hd, hw0, hwx, hs⟩ := id hp
  set k0 : Nat := p.dZ - 2 * p.width with hk0
  have hv : In p.dX p.dY p.dZ (0, 0, k0) := ⟨by dsimp only; omega, hY, by dsimp only; omega⟩
  have hin := inVol_of_in hv
  refine ⟨(0, 0, k0), hv, idx p.dX p.dY 0 0 (k0 + 2 * p.width : Nat), ?_, ?_⟩
  · unfold idx
    have : (p.dZ : Int) ≤ ((k0 + 2 * p.width : Nat) : Int) := by omega
    have := Int.mul_le_mul_of_nonneg_left this (by positivity : (0 : Int) ≤ p.dX * p.dY)
    push_cast at this ⊢
    omega
  · -- nothing is set, so the search loops find nothing
    have any0 : ∀ (cs : List Cell) (k : Bool → Prog Cell K), (∀ c ∈ cs, m1 c = 0) →
        ∀ l, l ∈ (k false).reads m1 → l ∈ (anySet cs k).reads m1 := by
      intro cs k hcs l hl
      induction cs with
      | nil => exact hl
      | cons c cs ih =>
        rw [anySet, Prog.reads, if_neg (by simp [hcs c List.mem_cons_self])]
        exact List.mem_cons_of_mem _ (ih fun c h => hcs c (List.mem_cons_of_mem _ h))
    rw [mergeBody, Prog.reads]
    refine List.mem_cons_of_mem _ ?_
    have ex : m1 (p.at (0 : Nat) (0 : Nat) k0) = 0 := hz _ _ _ hin
    rw [if_pos ex]
    refine any0 _ _ ?_ _ (any0 _ _ ?_ _ ?_)
    · intro c hc
      obtain ⟨d, hd, rfl⟩ := List.mem_map.1 hc
      rw [mem_intRange] at hd
      obtain ⟨h1, h2, h3, h4, h5, h6⟩ := hin
      obtain ⟨a, b⟩ := reflLo_bounds h1 h2 hd.1 hd.2 (by omega)
      exact hz _ _ _ ⟨a, b, h3, h4, h5, h6⟩
    · intro c hc
      obtain ⟨d, hd, rfl⟩ := List.mem_map.1 hc
      rw [mem_intRange] at hd
      obtain ⟨h1, h2, h3, h4, h5, h6⟩ := hin
      obtain ⟨a, b⟩ := reflHi_bounds h1 h2 hd.1 hd.2 (by omega)
      exact hz _ _ _ ⟨a, b, h3, h4, h5, h6⟩
    · simp only [Bool.false_and, Bool.false_eq_true, if_false]
      rw [mergeVert, Prog.reads]
      refine List.mem_cons_of_mem _ ?_
      have eo : m1 (.out (idx p.dX p.dY (0 : Nat) (0 : Nat) k0)) = 0 := hzo _ _ _ hin
      rw [if_pos eo]
      -- the first cell looked at is the mirrored one
      obtain ⟨cs, hcs⟩ : ∃ cs, upCells p 0 0 k0
          = Cell.work (idx p.dX p.dY 0 0 (k0 + 2 * p.width : Nat)) :: cs := by
        unfold upCells intRange
        rw [show ((0 : Int) + 1 - -((2 * p.width : Nat) : Int)).toNat = 2 * p.width + 1 by omega,
          List.range_succ_eq_map]
        rw [List.map_cons, List.map_cons]
        refine ⟨_, congrArg (· :: _) ?_⟩
        unfold MaskArgs.at reflLo
        rw [if_pos (by omega)]
        congr 2
        push_cast
        ring
      rw [hcs, anySet, Prog.reads]
      exact List.mem_cons_self

/-! The hypotheses can be met: 40 angles with the default width, and the smallest bad case. -/
example : Admissible (K := ℚ) ⟨64, 16, 40, 3 / 5, 20, 10, 5, 85⟩ ∧
    4 * (⟨64, 16, 40, 3 / 5, 20, 10, 5, 85⟩ : MaskArgs ℚ).width ≤ 40 := by
  unfold Admissible
  norm_num

example : maskArgs (K := ℚ) [21, 11, 30] (3 / 5) 20 10 6 85
      = .ok ⟨30, 11, 21, 3 / 5, 20, 10, 6, 85⟩ ∧ 21 < 4 * 6 :=
  ⟨by norm_num [maskArgs]; decide, by norm_num⟩

example : ∃ m : Cell → ℚ, ∀ i j k, InVol (⟨30, 11, 21, 3 / 5, 20, 10, 6, 85⟩ : MaskArgs ℚ) i j k →
    3 / 5 < m (.input (30 * 11 * k + j * 30 + i)) :=
  ⟨fun _ => 1, fun _ _ _ _ => by norm_num⟩

end Tomopy.Stripe
