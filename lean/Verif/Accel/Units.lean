import Verif.Accel.Fixed

/-! C204: accelerated reconstructions of data in other units and another order. -/

set_option linter.unusedSectionVars false

namespace Tomopy.Accel

variable {K : Type} [Field K] [LinearOrder K] [IsStrictOrderedRing K]

/-- Specification: turning an image of which every value is multiplied by `c` multiplies the turned image. -/
def Homogeneous (R : Rot K) : Prop := ∀ (p : Nat) (c : K) (im : Img K),
  R.fwd p (fun j => c * im j) = (fun j => c * R.fwd p im j) ∧ R.bwd p (fun j => c * im j) = fun j => c * R.bwd p im j

theorem rowStep_scale (nx : Nat) (b : Nat → K) (rot : Img K) (d : Nat) (c : K) (hc : c ≠ 0) :
    rowStep .sirt nx (fun d => c * b d) (fun j => c * rot j) d = fun j => c * rowStep .sirt nx b rot d j := by
  unfold rowStep
  dsimp only
  rw [← Finset.mul_sum]
  by_cases h : ∑ i ∈ Finset.range nx, rot (d * nx + i) = 0
  · rw [if_neg (by rw [h, mul_zero]; simp), if_neg (by rw [h]; simp)]
  · rw [if_pos (mul_ne_zero hc h), if_pos h]
    funext j
    by_cases hj : d * nx ≤ j ∧ j < d * nx + nx
    · rw [if_pos hj, if_pos hj]
      unfold residual
      ring
    · rw [if_neg hj, if_neg hj]

theorem simulate_scale (D : Dims) (b : Nat → K) (rot : Img K) (c : K) (hc : c ≠ 0) :
    simulate .sirt D (fun d => c * b d) (fun j => c * rot j) = fun j => c * simulate .sirt D b rot j := by
  unfold simulate
  generalize List.range D.dx = l
  induction l generalizing rot with
  | nil => rfl
  | cons d l ih => rw [List.foldl_cons, List.foldl_cons, rowStep_scale _ _ _ _ _ hc, ih]

theorem iter_scale (D : Dims) (R : Rot K) (hR : Homogeneous R) (data : Nat → Nat → Nat → K) (x : Nat → Img K) (c : K)
    (hc : c ≠ 0) : iter .sirt D R (fun s p d => c * data s p d) (fun s j => c * x s j)
      = fun s j => c * iter .sirt D R data x s j := by
  have h : ∀ p s i, contrib .sirt D R (fun s p d => c * data s p d) (fun s j => c * x s j) p s i
      = c * contrib .sirt D R data x p s i := by
    intro p s i
    unfold contrib
    rw [(hR p c (x s)).1, simulate_scale D (data s p) _ c hc, (hR p c _).2]
  funext s j
  unfold iter apply
  simp only [h, List.sum_map_mul_left]
  split
  · unfold combine
    ring
  · rfl

/-- **C204** The accelerated sirt gives `c` times the result for data and initial image multiplied by `c`, for every
`c ≠ 0`, rotation, size, number of iterations, and also the same failure. -/
theorem accel_sirt_scale (D : Dims) (R : Rot K) (hR : Homogeneous R) (ctr : Nat → K) (data : Nat → Nat → Nat → K)
    (n : Nat) (x : Nat → Img K) (c : K) (hc : c ≠ 0) :
    run .sirt D R ctr (fun s p d => c * data s p d) n (fun s j => c * x s j)
      = (run .sirt D R ctr data n x).map fun r s j => c * r s j := by
  have : ∀ n (x : Nat → Img K), (iter .sirt D R fun s p d => c * data s p d)^[n] (fun s j => c * x s j)
      = fun s j => c * (iter .sirt D R data)^[n] x s j := by
    intro n
    induction n with
    | zero => intro x; rfl
    | succ n ih => intro x; rw [Function.iterate_succ_apply, Function.iterate_succ_apply, iter_scale D R hR data x c hc, ih]
  unfold run
  rw [this]
  split <;> rfl

theorem still_homogeneous : Homogeneous (still (K := K)) := fun _ _ _ => ⟨rfl, rfl⟩

theorem turn_scale (n : Nat) (a b : ℤ) (c : K) (im : Img K) :
    turn n a b (fun j => c * im j) = fun j => c * turn n a b im j := by
  funext j
  unfold turn
  split
  · rfl
  · rw [mul_zero]

/-- Scans in quarter turns have such rotations. -/
theorem quarter_homogeneous (n : Nat) (q : Nat → ℤ × ℤ) : Homogeneous (quarterRot (K := K) n q) := fun _ c im =>
  ⟨turn_scale _ _ _ c im, turn_scale _ _ _ c im⟩

/-- One slice, projection, detector pixel and image pixel: the smallest call of `mlem_cpu` (mlem.cc:192). -/
def oneDims : Dims := ⟨1, 1, 1, 1, 1⟩

/-- The accelerated mlem on a single pixel: `x² + b` instead of the solution `b`. -/
theorem mlem_one (b x : K) (hx : x ≠ 0) (ctr : Nat → K) :
    ∃ r, run .mlem oneDims still ctr (fun _ _ _ => b) 1 (fun _ _ => x) = some r ∧ r 0 0 = x * x + b := by
  refine ⟨_, if_pos (by decide), ?_⟩
  rw [Function.iterate_one]
  have h1 : simulate .mlem oneDims (fun _ => b) (fun _ => x) 0 = x + b / x := by
    unfold simulate oneDims
    simp [rowStep, residual, hx]
  have h2 : sumDist oneDims (still (K := K)) 0 = 1 := by
    unfold sumDist oneDims still
    simp
  unfold iter apply
  rw [if_pos ⟨by rw [h2]; simp, by decide⟩, h2]
  have h3 : ((List.range oneDims.dt).map fun p => contrib .mlem oneDims still (fun _ _ _ => b) (fun _ _ => x) p 0 0).sum
      = x + b / x := by
    show (List.map _ [0]).sum = _
    simp only [List.map_cons, List.map_nil, List.sum_cons, List.sum_nil, add_zero]
    exact h1
  dsimp only
  rw [h3]
  unfold combine oneDims
  simp only [Nat.cast_one, div_one]
  field_simp

/-- **C204** Refutation: the accelerated mlem depends on the unit of the data, for every other unit. -/
theorem accel_mlem_scale_fails (c b x : K) (hc : c ≠ 0) (hc1 : c ≠ 1) (hx : x ≠ 0) (ctr : Nat → K) :
    ∃ r r', run .mlem oneDims still ctr (fun _ _ _ => b) 1 (fun _ _ => x) = some r ∧
      run .mlem oneDims still ctr (fun _ _ _ => c * b) 1 (fun _ _ => c * x) = some r' ∧ r' 0 0 ≠ c * r 0 0 := by
  obtain ⟨r, h1, h2⟩ := mlem_one b x hx ctr
  obtain ⟨r', h1', h2'⟩ := mlem_one (c * b) (c * x) (mul_ne_zero hc hx) ctr
  refine ⟨r, r', h1, h1', fun h => ?_⟩
  rw [h2, h2'] at h
  have : c * (c - 1) * (x * x) = 0 := by linear_combination h
  rcases mul_eq_zero.1 this with h | h
  · rcases mul_eq_zero.1 h with h | h
    · exact hc h
    · exact hc1 (sub_eq_zero.1 h)
  · exact mul_ne_zero hx hx h

/-- The rotations for the angles in the order `π` (sirt.cc:137 `theta[p]` of the reordered angles). -/
def reorder (R : Rot K) (π : Nat → Nat) : Rot K :=
  ⟨fun p => R.fwd (π p), fun p => R.bwd (π p), fun p => R.cover (π p)⟩

/-- **C204** The accelerated sirt and mlem return the same images if the projections are put into another order together
with their angles. -/
theorem accel_reordered (A : Alg) (D : Dims) (R : Rot K) (π : Nat → Nat)
    (hπ : ((List.range D.dt).map π).Perm (List.range D.dt)) (ctr : Nat → K) (data : Nat → Nat → Nat → K) (n : Nat)
    (x : Nat → Img K) :
    run A D (reorder R π) ctr (fun s p d => data s (π p) d) n x = run A D R ctr data n x := by
  have hs : ∀ i, sumDist D (reorder R π) i = sumDist D R i := by
    intro i
    unfold sumDist
    rw [← List.countP_eq_length_filter, ← List.countP_eq_length_filter,
      ← hπ.countP_eq (fun p => decide (i < D.dx * D.nx) && R.cover p i), List.countP_map]
    rfl
  have hi : iter A D (reorder R π) (fun s p d => data s (π p) d) = iter A D R data := by
    funext x s i
    have e : ((List.range D.dt).map fun p => contrib A D (reorder R π) (fun s p d => data s (π p) d) x p s i).sum
        = ((List.range D.dt).map fun p => contrib A D R data x p s i).sum := by
      rw [← (hπ.map fun p => contrib A D R data x p s i).sum_eq, List.map_map]
      rfl
    unfold iter apply
    dsimp only
    rw [e, hs]
  unfold run
  rw [hi]

example : ((List.range 4).map fun p => 3 - p).Perm (List.range 4) := by decide

example (ctr : Nat → ℚ) (x : Nat → Img ℚ) : run .sirt ⟨1, 2, 3, 3, 3⟩ (quarterRot 3 fun p => if p = 0 then (0, 1) else (1, 0)) ctr (fun _ p d => (-2) * ((p : ℚ) + d)) 5
    (fun s j => (-2) * x s j) = (run .sirt ⟨1, 2, 3, 3, 3⟩ (quarterRot 3 fun p => if p = 0 then (0, 1) else (1, 0)) ctr (fun _ p d => (p : ℚ) + d) 5 x).map
      fun r s j => (-2) * r s j :=
  accel_sirt_scale _ _ (quarter_homogeneous 3 _) ctr _ 5 x (-2) (by norm_num)

example (ctr : Nat → ℚ) : ∃ r r', run .mlem oneDims still ctr (fun _ _ _ => 3) 1 (fun _ _ => 1) = some r ∧
    run .mlem oneDims still ctr (fun _ _ _ => 2 * 3) 1 (fun _ _ => 2 * 1) = some r' ∧ r' 0 0 ≠ 2 * r 0 0 :=
  accel_mlem_scale_fails 2 3 1 (by norm_num) (by norm_num) (by norm_num) ctr

end Tomopy.Accel
