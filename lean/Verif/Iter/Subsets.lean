import Verif.Iter.Model
import Verif.Mproc.Lemmas

/-!
# Ordered subsets (C33)
-/

set_option linter.unusedSectionVars false

namespace Tomopy.Iter

variable {K : Type*} [Field K] [LinearOrder K] [IsStrictOrderedRing K]

/-- The indices of a subset. -/
def blockRange (b : Nat × Nat) : List Nat := List.range' b.1 (b.2 - b.1)

theorem subsetsFrom_flat (dt nb : Nat) : ∀ (count os start : Nat),
    (subsetsFrom dt nb count os start).flatMap blockRange =
      List.range' start ((List.range count).map fun i =>
        dt / nb + if os + i < dt % nb then 1 else 0).sum := by
  intro count
  induction count with
  | zero => intro os start; rfl
  | succ k ih =>
    intro os start
    have e : ((List.range (k + 1)).map fun i => dt / nb + if os + i < dt % nb then 1 else 0).sum =
        (dt / nb + if os < dt % nb then 1 else 0) +
          ((List.range k).map fun i => dt / nb + if os + 1 + i < dt % nb then 1 else 0).sum := by
      rw [List.range_succ_eq_map, List.map_cons, List.sum_cons, List.map_map]
      congr 2
      apply List.map_congr_left
      intro i _
      simp only [Function.comp]
      rw [show os + (i + 1) = os + 1 + i by omega]
    rw [e, subsetsFrom, List.flatMap_cons, ih, ← List.range'_append_1]
    congr 1
    · unfold blockRange
      congr 1
      simp only
      generalize dt / nb = z
      omega
    · rw [Nat.add_assoc]

/-- **C33**: the subsets are a partition of the projections into consecutive ranges: listed one
after the other they are `0, 1, ..., num_angles - 1`. -/
theorem subsets_partition (dt nb : Nat) (hnb : 1 ≤ nb) :
    (subsets dt nb).flatMap blockRange = List.range dt := by
  unfold subsets
  rw [subsetsFrom_flat]
  have : ((List.range nb).map fun i => dt / nb + if 0 + i < dt % nb then 1 else 0).sum = dt := by
    have h := Mproc.sum_map_if (dt / nb) (dt % nb) nb
    simp only [Nat.zero_add]
    rw [h, Nat.min_eq_left (Nat.mod_lt dt hnb).le]
    exact Nat.div_add_mod dt nb
  rw [this, List.range_eq_range']

theorem subsetsFrom_size {dt nb : Nat} : ∀ {count os start : Nat} {b : Nat × Nat},
    b ∈ subsetsFrom dt nb count os start →
    b.2 - b.1 = dt / nb ∨ b.2 - b.1 = dt / nb + 1 := by
  intro count
  induction count with
  | zero => intro os start b h; simp [subsetsFrom] at h
  | succ k ih =>
    intro os start b h
    rw [subsetsFrom, List.mem_cons] at h
    rcases h with rfl | h
    · simp only
      generalize dt / nb = z
      split <;> omega
    · exact ih h

/-- **C33**: the sizes of two subsets differ by at most one. -/
theorem subsets_balanced {dt nb : Nat} {a b : Nat × Nat} (ha : a ∈ subsets dt nb)
    (hb : b ∈ subsets dt nb) : (blockRange a).length ≤ (blockRange b).length + 1 := by
  have h1 := subsetsFrom_size ha
  have h2 := subsetsFrom_size hb
  simp only [blockRange, List.length_range']
  omega

theorem subsetsFrom_length (dt nb : Nat) : ∀ count os start,
    (subsetsFrom dt nb count os start).length = count := by
  intro count
  induction count with
  | zero => intro os start; rfl
  | succ k ih => intro os start; rw [subsetsFrom, List.length_cons, ih]

/-- **C33**: there are as many subsets as requested (empty ones when there are more blocks than
projections). -/
theorem subsets_count (dt nb : Nat) : (subsets dt nb).length = nb := subsetsFrom_length dt nb nb 0 0

theorem subsetsFrom_last (dt nb : Nat) : ∀ count os start,
    ((subsetsFrom dt nb count os start).getLast?.map Prod.snd).getD start =
      start + ((List.range count).map fun i => dt / nb + if os + i < dt % nb then 1 else 0).sum := by
  intro count
  induction count with
  | zero => intro os start; rfl
  | succ k ih =>
    intro os start
    have e : ((List.range (k + 1)).map fun i => dt / nb + if os + i < dt % nb then 1 else 0).sum =
        (dt / nb + if os < dt % nb then 1 else 0) +
          ((List.range k).map fun i => dt / nb + if os + 1 + i < dt % nb then 1 else 0).sum := by
      rw [List.range_succ_eq_map, List.map_cons, List.sum_cons, List.map_map]
      congr 2
      apply List.map_congr_left
      intro i _
      simp only [Function.comp]
      rw [show os + (i + 1) = os + 1 + i by omega]
    rw [subsetsFrom, e]
    have := ih (os + 1) (start + dt / nb + (if os < dt % nb then 1 else 0))
    rw [List.getLast?_cons]
    cases h : (subsetsFrom dt nb k (os + 1)
        (start + dt / nb + if os < dt % nb then 1 else 0)).getLast? with
    | none =>
      rw [h] at this
      simp only [Option.map_none, Option.getD_none] at this
      simp only [Option.getD_none, Option.map_some, Option.getD_some]
      omega
    | some c =>
      rw [h] at this
      simp only [Option.map_some, Option.getD_some] at this ⊢
      omega

/-- **C63** (refutation): `subset_end` of the last subset equals the number of projections, so
`assert(subset_end < dt)` (`osem.c:104`, `bart.c:103`, `ospml_quad.c:102`) fails in every call of
a build with assertions. -/
theorem subsets_last (dt nb : Nat) (hnb : 1 ≤ nb) :
    ∃ b ∈ subsets dt nb, b.2 = dt := by
  have h := subsetsFrom_last dt nb nb 0 0
  have hs : ((List.range nb).map fun i => dt / nb + if 0 + i < dt % nb then 1 else 0).sum = dt := by
    have h := Mproc.sum_map_if (dt / nb) (dt % nb) nb
    simp only [Nat.zero_add]
    rw [h, Nat.min_eq_left (Nat.mod_lt dt hnb).le]
    exact Nat.div_add_mod dt nb
  rw [hs] at h
  have hl := subsets_count dt nb
  unfold subsets at hl ⊢
  cases hg : (subsetsFrom dt nb nb 0 0).getLast? with
  | none =>
    rw [List.getLast?_eq_none_iff] at hg
    rw [hg] at hl
    simp at hl
    omega
  | some b =>
    rw [hg] at h
    simp only [Option.map_some, Option.getD_some, Nat.zero_add] at h
    exact ⟨b, List.mem_of_getLast? hg, h⟩

/-! ## Which projections are used -/

theorem mapM_some {α β : Type*} (f : α → Option β) (g : α → β) : ∀ (l : List α),
    (∀ a ∈ l, f a = some (g a)) → l.mapM f = some (l.map g) := by
  intro l
  induction l with
  | nil => intro _; rfl
  | cons a l ih =>
    intro h
    rw [List.mapM_cons, h a (by simp), ih (fun b hb => h b (List.mem_cons_of_mem _ hb))]
    rfl

/-- The blocks of projection indices of a call (specification: `subsets` mapped through
`ind_block`, or taken as they are for a single block). -/
def usedBlocks (dt nb : Nat) (ind : List Nat) : List (List Nat) :=
  (subsets dt nb).map fun b => (blockRange b).map fun q => if nb = 1 then q else ind.getD q 0

theorem subset_bounds {dt nb : Nat} (hnb : 1 ≤ nb) {b : Nat × Nat} (hb : b ∈ subsets dt nb)
    {q : Nat} (hq : q ∈ blockRange b) : q < dt := by
  have : q ∈ (subsets dt nb).flatMap blockRange := List.mem_flatMap.mpr ⟨b, hb, hq⟩
  rw [subsets_partition dt nb hnb] at this
  exact List.mem_range.mp this

theorem blocks_eq (dt nb : Nat) (ind : List Nat) (hnb : 1 ≤ nb)
    (hlen : nb = 1 ∨ dt ≤ ind.length) :
    (subsets dt nb).mapM (subsetProjs nb ind) = some (usedBlocks dt nb ind) := by
  apply mapM_some
  intro b hb
  unfold subsetProjs
  have e : (List.range (b.2 - b.1)).map (b.1 + ·) = blockRange b := by
    rw [blockRange, List.range'_eq_map_range]
  rw [e]
  apply mapM_some
  intro q hq
  unfold blockIndex
  split
  · rfl
  · have h1 := subset_bounds hnb hb hq
    have h2 : q < ind.length := by
      rcases hlen with h | h
      · contradiction
      · omega
    rw [List.getElem?_eq_getElem h2, List.getD_eq_getElem?_getD, List.getElem?_eq_getElem h2]
    rfl

theorem usedBlocks_flatten (dt nb : Nat) (ind : List Nat) (hnb : 1 ≤ nb) :
    (usedBlocks dt nb ind).flatten =
      (List.range dt).map fun q => if nb = 1 then q else ind.getD q 0 := by
  unfold usedBlocks
  rw [← List.flatMap_def, ← subsets_partition dt nb hnb, List.map_flatMap]

/-- **C33**: with a permutation of the projections as `ind_block` no read leaves `ind_block` and
the subsets together use every projection exactly once. -/
theorem blocks_perm {dt nb : Nat} {ind : List Nat} (hnb : 1 ≤ nb)
    (hperm : ind.Perm (List.range dt)) :
    (subsets dt nb).mapM (subsetProjs nb ind) = some (usedBlocks dt nb ind) ∧
      (usedBlocks dt nb ind).flatten.Perm (List.range dt) ∧
      (usedBlocks dt nb ind).length = nb := by
  have hl : ind.length = dt := by rw [hperm.length_eq, List.length_range]
  refine ⟨blocks_eq dt nb ind hnb (Or.inr (by omega)), ?_, ?_⟩
  · rw [usedBlocks_flatten dt nb ind hnb]
    by_cases h : nb = 1
    · simp [h]
    · simp only [h, if_false]
      have : (List.range dt).map (fun q => ind.getD q 0) = ind := by
        apply List.ext_getElem
        · simp [hl]
        · intro i h1 h2
          simp [List.getD_eq_getElem?_getD, h2]
      rw [this]
      exact hperm
  · unfold usedBlocks
    rw [List.length_map, subsets_count]

/-- **C33**: a single block uses the projections in their order and ignores `ind_block` (the
wrappers pass `ind_block = [0]`). -/
theorem blocks_single (dt : Nat) (ind : List Nat) :
    (subsets dt 1).mapM (subsetProjs 1 ind) = some [List.range dt] := by
  rw [blocks_eq dt 1 ind (le_refl 1) (Or.inl rfl)]
  congr 1
  have h1 : (usedBlocks dt 1 ind).length = 1 := by
    unfold usedBlocks; rw [List.length_map, subsets_count]
  have h2 := usedBlocks_flatten dt 1 ind (le_refl 1)
  obtain ⟨l, hl⟩ := List.length_eq_one_iff.mp h1
  rw [hl] at h2 ⊢
  simp only [List.flatten_cons, List.flatten_nil, List.append_nil, if_true, List.map_id'] at h2
  rw [h2]

/-- **C33**: `mlem` is `osem`, and `sirt` is `bart`, with one block, whatever `ind_block` is. -/
theorem mlem_eq_osem (D : Dims) (g : Geom K) (data : Mem K) (n : Nat) (ind : List Nat)
    (recon : Mem K) : mlem D g data n recon = osem D g data n 1 ind recon := by
  unfold mlem osem osRun
  rw [blocks_single, blocks_single]

theorem sirt_eq_bart (D : Dims) (g : Geom K) (data : Mem K) (n : Nat) (ind : List Nat)
    (recon : Mem K) : sirt D g data n recon = bart D g data n 1 ind recon := by
  unfold sirt bart osRun
  rw [blocks_single, blocks_single]

/-- **C64** (refutation): `num_block = 0` is an integer division by zero in C for every non-empty
call. -/
theorem osRun_zero_blocks (mt : Method K) (fin : Nat → Acc K → Mem K → Option (Mem K)) (D : Dims)
    (g : Geom K) (data : Mem K) (n : Nat) (ind : List Nat) (recon : Mem K)
    (h : ¬ (D.dy = 0 ∨ D.dt = 0 ∨ D.dx = 0)) : osRun mt fin D g data n 0 ind recon = none := by
  unfold osRun
  rw [if_neg h, if_pos rfl]

/-- **C64** (refutation): an `ind_block` shorter than the number of projections is read out of
bounds as soon as there are two blocks. -/
theorem osRun_short_ind (mt : Method K) (fin : Nat → Acc K → Mem K → Option (Mem K)) (D : Dims)
    (g : Geom K) (data : Mem K) (n nb : Nat) (ind : List Nat) (recon : Mem K) (hnb : 2 ≤ nb)
    (h : ¬ (D.dy = 0 ∨ D.dt = 0 ∨ D.dx = 0)) (hl : ind.length < D.dt) :
    osRun mt fin D g data n nb ind recon = none := by
  unfold osRun
  rw [if_neg h, if_neg (by omega)]
  have hq : ind.length ∈ (subsets D.dt nb).flatMap blockRange := by
    rw [subsets_partition D.dt nb (by omega)]
    exact List.mem_range.mpr hl
  obtain ⟨b, hb, hqb⟩ := List.mem_flatMap.mp hq
  have hfail : subsetProjs nb ind b = none := by
    unfold subsetProjs
    have e : (List.range (b.2 - b.1)).map (b.1 + ·) = blockRange b := by
      rw [blockRange, List.range'_eq_map_range]
    rw [e]
    have key : ∀ l : List Nat, ind.length ∈ l → l.mapM (blockIndex nb ind) = none := by
      intro l
      induction l with
      | nil => intro h; simp at h
      | cons a l ih =>
        intro ha
        rw [List.mapM_cons]
        rcases List.mem_cons.mp ha with rfl | ha
        · have : blockIndex nb ind ind.length = none := by
            unfold blockIndex
            rw [if_neg (by omega)]
            simp
          rw [this]; rfl
        · rw [ih ha]
          cases blockIndex nb ind a <;> rfl
    exact key _ hqb
  have : (subsets D.dt nb).mapM (subsetProjs nb ind) = none := by
    have key : ∀ l : List (Nat × Nat), b ∈ l → l.mapM (subsetProjs nb ind) = none := by
      intro l
      induction l with
      | nil => intro h; simp at h
      | cons a l ih =>
        intro ha
        rw [List.mapM_cons]
        rcases List.mem_cons.mp ha with rfl | ha
        · rw [hfail]; rfl
        · rw [ih ha]
          cases subsetProjs nb ind a <;> rfl
    exact key _ hb
  rw [this]
  rfl

section Example

example : subsets 7 3 = [(0, 3), (3, 5), (5, 7)] := by decide

/-- A concrete permutation for `blocks_perm`. -/
example : ([2, 0, 3, 1] : List Nat).Perm (List.range 4) := by decide

example : usedBlocks 4 2 [2, 0, 3, 1] = [[2, 0], [3, 1]] := by decide

end Example

end Tomopy.Iter
