import Verif.Accel.Model
import Mathlib.Data.List.Perm.Basic
import Mathlib.Data.List.Count
import Mathlib.Algebra.BigOperators.Ring.Finset
import Mathlib.Algebra.BigOperators.Field
import Mathlib.Tactic.Linarith
import Mathlib.Tactic.Ring
import Mathlib.Tactic.FieldSimp
import Mathlib.Data.Rat.Defs
import Mathlib.Algebra.Order.Ring.Rat
import Mathlib.Algebra.Field.Rat

/-! Properties of the rotation-based reconstructions (C83). -/

set_option linter.unusedSectionVars false

namespace Tomopy.Accel

variable {K : Type} [Field K] [LinearOrder K] [IsStrictOrderedRing K]

/-! ### Bounds -/

/-- All accesses to the turned image and to the image of ones stay inside the arrays of
`num_gridx * num_gridy` elements exactly if there are at least as many grid rows as detector
pixels (or there is nothing to do). -/
theorem accel_inbounds (D : Dims) : (∀ a ∈ accesses D, a < D.nx * D.ny) ↔
    D.dx ≤ D.ny ∨ D.dt = 0 ∨ D.dy = 0 ∨ D.nx = 0 := by
  have hmem : ∀ a, a ∈ accesses D ↔
      0 < D.dt ∧ 0 < D.dy ∧ ∃ d < D.dx, ∃ i < D.nx, d * D.nx + i = a := by
    intro a
    simp only [accesses, List.mem_flatMap, List.mem_range, List.mem_map]
    constructor
    · rintro ⟨p, hp, s, hs, d, hd, i, hi, rfl⟩
      exact ⟨by omega, by omega, d, hd, i, hi, rfl⟩
    · rintro ⟨hp, hs, d, hd, i, hi, rfl⟩
      exact ⟨0, hp, 0, hs, d, hd, i, hi, rfl⟩
  simp only [hmem]
  constructor
  · intro h
    by_contra hn
    push Not at hn
    obtain ⟨h1, h2, h3, h4⟩ := hn
    have := h (D.ny * D.nx + 0) ⟨by omega, by omega, D.ny, h1, 0, by omega, rfl⟩
    rw [Nat.mul_comm] at this
    omega
  · rintro h a ⟨h1, h2, d, hd, i, hi, rfl⟩
    rcases h with h | h | h | h
    · calc d * D.nx + i < d * D.nx + D.nx := by omega
        _ = (d + 1) * D.nx := by ring
        _ ≤ D.ny * D.nx := Nat.mul_le_mul_right _ (by omega)
        _ = D.nx * D.ny := Nat.mul_comm ..
    all_goals omega

/-- So a grid with fewer rows than the detector has pixels is read and written outside. -/
theorem accel_overflow (A : Alg) (D : Dims) (R : Rot K) (c : Nat → K)
    (data : Nat → Nat → Nat → K) (k : Nat) (x : Nat → Img K) (h : D.ny < D.dx) (h1 : 0 < D.dt)
    (h2 : 0 < D.dy) (h3 : 0 < D.nx) : run A D R c data k x = none := by
  unfold run
  rw [if_neg]
  simp only [List.all_eq_true, decide_eq_true_eq]
  rw [accel_inbounds]
  omega

/-- The reconstruction is the same for every rotation centre. -/
theorem center_ignored (A : Alg) (D : Dims) (R : Rot K) (c c' : Nat → K)
    (data : Nat → Nat → Nat → K) (k : Nat) (x : Nat → Img K) :
    run A D R c data k x = run A D R c' data k x := rfl

/-- With enough rows the result is that of the iterations. -/
theorem run_eq (A : Alg) (D : Dims) (R : Rot K) (c : Nat → K)
    (data : Nat → Nat → Nat → K) (k : Nat) (x : Nat → Img K) (h : D.dx ≤ D.ny) :
    run A D R c data k x = some ((iter A D R data)^[k] x) := by
  unfold run
  rw [if_pos]
  simp only [List.all_eq_true, decide_eq_true_eq]
  exact (accel_inbounds D).2 (Or.inl h)

/-! ### One projection -/

/-- Specification: sum of row `d` of an image. -/
def rowSum (nx : Nat) (im : Img K) (d : Nat) : K := ∑ i ∈ Finset.range nx, im (d * nx + i)

omit [LinearOrder K] [IsStrictOrderedRing K] in
theorem rowSum_congr {nx : Nat} {im im' : Img K} {d : Nat}
    (h : ∀ i < nx, im (d * nx + i) = im' (d * nx + i)) : rowSum nx im d = rowSum nx im' d :=
  Finset.sum_congr rfl fun i hi => h i (Finset.mem_range.1 hi)

theorem rowStep_apply (A : Alg) (nx : Nat) (b : Nat → K) (rot : Img K) (d j : Nat) :
    rowStep A nx b rot d j =
      if rowSum nx rot d ≠ 0 ∧ (d * nx ≤ j ∧ j < d * nx + nx) then
        rot j + residual A (b d) (rowSum nx rot d) else rot j := by
  by_cases h : rowSum nx rot d = 0
  · have h' : ∑ i ∈ Finset.range nx, rot (d * nx + i) = 0 := h
    simp [rowStep, h, h']
  · have h' : ∑ i ∈ Finset.range nx, rot (d * nx + i) ≠ 0 := h
    simp only [rowStep]
    rw [if_pos h']
    simp only [ne_eq, h, not_false_eq_true, true_and]
    rfl

/-- The loop over the detector pixels adds to every pixel of row `d` the residual of that row. -/
theorem simulate_value (A : Alg) (D : Dims) (b : Nat → K) (rot : Img K) (j : Nat) :
    simulate A D b rot j = rot j +
      if j / D.nx < D.dx ∧ rowSum D.nx rot (j / D.nx) ≠ 0 then
        residual A (b (j / D.nx)) (rowSum D.nx rot (j / D.nx)) else 0 := by
  rcases Nat.eq_zero_or_pos D.nx with h0 | hpos
  · have hs : ∀ (l : List Nat) (r : Img K), l.foldl (rowStep A D.nx b) r = r := by
      intro l
      induction l with
      | nil => intro r; rfl
      | cons d l ih =>
        intro r
        rw [List.foldl_cons, ih]
        simp [rowStep, h0]
    rw [simulate, hs]
    simp [rowSum, h0]
  · have key : ∀ k, ∀ j, ((List.range k).foldl (rowStep A D.nx b) rot) j = rot j +
        if j / D.nx < k ∧ rowSum D.nx rot (j / D.nx) ≠ 0 then
          residual A (b (j / D.nx)) (rowSum D.nx rot (j / D.nx)) else 0 := by
      intro k
      induction k with
      | zero => intro j; simp
      | succ k ih =>
        intro j
        rw [List.range_succ, List.foldl_append, List.foldl_cons, List.foldl_nil]
        set r := (List.range k).foldl (rowStep A D.nx b) rot with hr
        have hrow : rowSum D.nx r k = rowSum D.nx rot k := by
          apply rowSum_congr
          intro i hi
          have hd : (k * D.nx + i) / D.nx = k := by
            rw [Nat.mul_comm, Nat.mul_add_div hpos, Nat.div_eq_of_lt hi, Nat.add_zero]
          rw [ih, hd]
          simp
        have hmem : (k * D.nx ≤ j ∧ j < k * D.nx + D.nx) ↔ j / D.nx = k := by
          rw [Nat.div_eq_iff hpos]
          constructor
          · rintro ⟨h1, h2⟩; constructor <;> omega
          · rintro ⟨h1, h2⟩; constructor <;> omega
        rw [rowStep_apply, hrow]
        by_cases hz : rowSum D.nx rot k ≠ 0
        · by_cases hj : j / D.nx = k
          · rw [if_pos ⟨hz, hmem.2 hj⟩, ih, hj, if_neg (by omega), if_pos ⟨by omega, hz⟩]
            ring
          · rw [if_neg (fun h => hj (hmem.1 h.2)), ih]
            have : j / D.nx < k ↔ j / D.nx < k + 1 := by omega
            simp only [this]
        · rw [if_neg (fun h => hz h.1), ih]
          by_cases hj : j / D.nx = k
          · rw [hj, if_neg (by omega), if_neg (fun h => hz h.2)]
          · have : j / D.nx < k ↔ j / D.nx < k + 1 := by omega
            simp only [this]
    exact key D.dx j

/-- Non-trivial case: two rows of two pixels, the second one with zero sum. -/
example : (List.range 4).map (simulate (K := ℚ) .sirt ⟨1, 1, 2, 2, 2⟩ (fun d => if d = 0 then 5 else 7)
    (fun j => if j = 0 then 1 else if j = 1 then 2 else if j = 2 then 3 else -3)) =
    [3, 4, 3, -3] := by decide +kernel

/-! ### Kernels on the GPU -/

/-- Every row below `dx` is visited by exactly one thread of the grid, for every grid and block
size. -/
theorem stride_covers (dx grid block d : Nat) (hd : d < dx) (hg : 0 < grid) (hb : 0 < block) :
    ∃ blk < grid, ∃ t < block, d ∈ threadRows dx grid block blk t ∧
      ∀ blk' < grid, ∀ t' < block, d ∈ threadRows dx grid block blk' t' → blk' = blk ∧ t' = t := by
  have hmem : ∀ blk < grid, ∀ t < block, d ∈ threadRows dx grid block blk t ↔
      d % (block * grid) = blk * block + t := by
    intro blk h1 t h2
    have hlt : blk * block + t < block * grid := by
      calc blk * block + t < blk * block + block := by omega
        _ = (blk + 1) * block := by ring
        _ ≤ grid * block := Nat.mul_le_mul_right _ h1
        _ = block * grid := Nat.mul_comm ..
    simp only [threadRows, List.mem_filter, List.mem_range, decide_eq_true_eq]
    set m := block * grid
    set a := blk * block + t
    constructor
    · rintro ⟨_, h3, h4⟩
      have : d = a + (d - a) := by omega
      obtain ⟨q, hq⟩ := Nat.dvd_of_mod_eq_zero h4
      rw [this, hq, Nat.add_mul_mod_self_left, Nat.mod_eq_of_lt hlt]
    · intro h
      have h5 := Nat.mod_add_div d m
      rw [h] at h5
      refine ⟨hd, by omega, ?_⟩
      have : d - a = m * (d / m) := by omega
      rw [this, Nat.mul_mod_right]
  have hm : d % (block * grid) < block * grid := Nat.mod_lt _ (Nat.mul_pos hb hg)
  have hdiv := Nat.div_add_mod (d % (block * grid)) block
  have hlt := Nat.mod_lt (d % (block * grid)) hb
  have hq : d % (block * grid) / block < grid := Nat.div_lt_of_lt_mul hm
  refine ⟨d % (block * grid) / block, hq, d % (block * grid) % block, hlt, ?_, ?_⟩
  · rw [hmem _ hq _ hlt, Nat.mul_comm (d % _ / block) block]
    exact hdiv.symm
  · intro blk' h1 t' h2 h3
    rw [hmem _ h1 _ h2] at h3
    rw [h3]
    constructor
    · rw [Nat.mul_comm, Nat.mul_add_div hb, Nat.div_eq_of_lt h2, Nat.add_zero]
    · rw [Nat.mul_comm, Nat.mul_add_mod, Nat.mod_eq_of_lt h2]

example : threadRows 7 2 2 1 0 = [2, 6] := by decide

/-- In whatever order the threads reach the rows, the kernel of the GPU adds to every pixel of a row
the residual of that row, without the exception for rows whose sum is zero. -/
theorem gpu_rows_value (nx : Nat) (b : Nat → K) (rows : List Nat) (hn : rows.Nodup) (rot : Img K)
    (j : Nat) (hpos : 0 < nx) : simulateGpuSirt nx b rows rot j = rot j +
      if j / nx ∈ rows then b (j / nx) - rowSum nx rot (j / nx) else 0 := by
  unfold simulateGpuSirt
  induction rows generalizing rot with
  | nil => simp
  | cons d l ih =>
    obtain ⟨hd, hl⟩ := List.nodup_cons.1 hn
    have hmem : ∀ j, (d * nx ≤ j ∧ j < d * nx + nx) ↔ j / nx = d := by
      intro j
      rw [Nat.div_eq_iff hpos]
      constructor
      · rintro ⟨h1, h2⟩; constructor <;> omega
      · rintro ⟨h1, h2⟩; constructor <;> omega
    rw [List.foldl_cons, ih hl]
    have hrow : ∀ e, e ≠ d → rowSum nx (rowStepGpuSirt nx b rot d) e = rowSum nx rot e := by
      intro e he
      apply rowSum_congr
      intro i hi
      have hq : (e * nx + i) / nx = e := by
        rw [Nat.mul_comm, Nat.mul_add_div hpos, Nat.div_eq_of_lt hi, Nat.add_zero]
      unfold rowStepGpuSirt
      rw [if_neg]
      rw [hmem, hq]
      exact he
    by_cases hj : j / nx = d
    · rw [hj, if_neg hd, if_pos (List.mem_cons_self ..)]
      unfold rowStepGpuSirt
      rw [if_pos ((hmem j).2 hj)]
      unfold rowSum
      ring
    · rw [hrow _ hj]
      have : rowStepGpuSirt nx b rot d j = rot j := by
        unfold rowStepGpuSirt
        rw [if_neg (fun h => hj ((hmem j).1 h))]
      rw [this]
      simp [hj]

/-- The two versions differ on every row with zero sum and data that are not zero. -/
theorem gpu_cpu_differ (D : Dims) (b : Nat → K) (rot : Img K) (j : Nat) (hpos : 0 < D.nx)
    (hj : j / D.nx < D.dx) (hz : rowSum D.nx rot (j / D.nx) = 0) (hb : b (j / D.nx) ≠ 0) :
    simulateGpuSirt D.nx b (List.range D.dx) rot j ≠ simulate .sirt D b rot j := by
  rw [gpu_rows_value _ _ _ List.nodup_range _ _ hpos, simulate_value,
    if_pos (List.mem_range.2 hj), if_neg (fun h => h.2 hz), hz]
  simpa using hb

/-- Non-trivial case: an image of zeros. -/
example : simulateGpuSirt (K := ℚ) 2 (fun _ => 5) [1, 0] (fun _ => 0) 3 = 5 ∧
    simulate (K := ℚ) .sirt ⟨1, 1, 2, 2, 2⟩ (fun _ => 5) (fun _ => 0) 3 = 0 := by decide +kernel

/-- The counts on the GPU clear `nx * nx` elements of an array of `nx * ny`: beyond its end exactly
if the grid is wider than high. -/
theorem gpu_clear_overflow (nx ny : Nat) : (gpuClear nx ny).1 < (gpuClear nx ny).2 ↔ ny < nx := by
  simp only [gpuClear]
  constructor
  · intro h
    exact Nat.lt_of_mul_lt_mul_left h
  · intro h
    exact Nat.mul_lt_mul_of_pos_left h (by omega)

end Tomopy.Accel
