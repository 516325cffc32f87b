import Verif.Accel.Threads
import Mathlib.Tactic.Positivity
import Mathlib.Tactic.LinearCombination

/-! What the iterations of the rotation-based reconstructions do to images (C83). -/

set_option linter.unusedSectionVars false

namespace Tomopy.Accel

variable {K : Type} [Field K] [LinearOrder K] [IsStrictOrderedRing K]

/-! ### Slices and zero -/

/-- A slice of the result depends only on the same slice of the data and of the initial image. -/
theorem accel_slice (A : Alg) (D : Dims) (R : Rot K) (data data' : Nat → Nat → Nat → K) (s k : Nat)
    (x x' : Nat → Img K) (hd : data s = data' s) (hx : x s = x' s) :
    (iter A D R data)^[k] x s = (iter A D R data')^[k] x' s := by
  induction k generalizing x x' with
  | zero => exact hx
  | succ k ih =>
    rw [Function.iterate_succ_apply, Function.iterate_succ_apply]
    apply ih
    funext i
    simp only [iter, apply, contrib, hd, hx]

/-- Rotations of the zero image (specification). -/
def KeepsZero (R : Rot K) : Prop := ∀ p, R.fwd p (fun _ => 0) = (fun _ => 0) ∧
  R.bwd p (fun _ => 0) = fun _ => 0

/-- The zero image stays zero, whatever the data: rows with zero sum are skipped. -/
theorem accel_zero_stuck (A : Alg) (D : Dims) (R : Rot K) (hR : KeepsZero R)
    (data : Nat → Nat → Nat → K) (k : Nat) :
    (iter A D R data)^[k] (fun _ _ => 0) = fun _ _ => 0 := by
  have h1 : iter A D R data (fun _ _ => 0) = fun _ _ => 0 := by
    have hc : ∀ p s, contrib A D R data (fun _ _ => 0) p s = fun _ => 0 := by
      intro p s
      unfold contrib
      rw [(hR p).1]
      have : simulate A D (data s p) (fun _ => 0) = fun _ => (0 : K) := by
        funext j
        rw [simulate_value, if_neg]
        · simp
        · simp [rowSum]
      rw [this, (hR p).2]
    funext s i
    simp only [iter, apply, hc]
    cases A <;> simp [combine]
  induction k with
  | zero => rfl
  | succ k ih => rw [Function.iterate_succ_apply, h1, ih]

/-- Rotations with non-negative weights (specification). -/
def Positive (R : Rot K) : Prop := ∀ p (im : Img K), (∀ j, 0 ≤ im j) →
  (∀ j, 0 ≤ R.fwd p im j) ∧ ∀ j, 0 ≤ R.bwd p im j

/-- Non-negative data and a non-negative image give non-negative images in `mlem`. -/
theorem mlem_nonneg (D : Dims) (R : Rot K) (hR : Positive R) (data : Nat → Nat → Nat → K)
    (hd : ∀ s p d, 0 ≤ data s p d) (k : Nat) (x : Nat → Img K) (hx : ∀ s i, 0 ≤ x s i) (s i : Nat) :
    0 ≤ (iter .mlem D R data)^[k] x s i := by
  induction k generalizing x with
  | zero => exact hx s i
  | succ k ih =>
    rw [Function.iterate_succ_apply]
    apply ih
    intro s i
    simp only [iter, apply]
    split_ifs with h
    · have hc : ∀ p, 0 ≤ contrib .mlem D R data x p s i := by
        intro p
        refine (hR p _ ?_).2 i
        intro j
        rw [simulate_value]
        have hf := (hR p (x s) (hx s)).1
        refine add_nonneg (hf j) ?_
        split_ifs
        · exact div_nonneg (hd ..) (Finset.sum_nonneg fun i _ => hf _)
        · exact le_rfl
      refine mul_nonneg (hx s i) (div_nonneg (div_nonneg ?_ (Nat.cast_nonneg _)) (Nat.cast_nonneg _))
      apply List.sum_nonneg
      intro a ha
      obtain ⟨p, -, rfl⟩ := List.mem_map.1 ha
      exact hc p
    · exact hx s i

/-! ### Consistent images -/

/-- Exact rotations on `N` pixels (specification): turning back undoes turning, adding a constant
commutes with turning, and every pixel is covered. -/
structure Exact (D : Dims) (R : Rot K) : Prop where
  back : ∀ p < D.dt, ∀ im im' : Img K, (∀ j < D.nx * D.ny, im' j = R.fwd p im j) →
    ∀ j < D.nx * D.ny, R.bwd p im' j = im j
  const : ∀ p < D.dt, ∀ (im : Img K) (a : K), ∀ j < D.nx * D.ny,
    R.fwd p (fun j => im j + a) j = R.fwd p im j + a
  cover : ∀ p < D.dt, ∀ j < D.nx * D.ny, R.cover p j = true

/-- The projections of the image are the data (specification). -/
def Consistent (D : Dims) (R : Rot K) (data : Nat → Nat → Nat → K) (x : Img K) (s : Nat) : Prop :=
  ∀ p < D.dt, ∀ d < D.dx, rowSum D.nx (R.fwd p x) d = data s p d

theorem sumDist_full {D : Dims} {R : Rot K} (hR : Exact D R) (hn : D.dx = D.ny) {i : Nat}
    (hi : i < D.nx * D.ny) : sumDist D R i = D.dt := by
  unfold sumDist
  rw [List.filter_eq_self.2, List.length_range]
  intro p hp
  rw [hR.cover p (List.mem_range.1 hp) i hi]
  rw [Nat.mul_comm, ← hn] at hi
  simpa using hi

theorem iter_uniform {A : Alg} {D : Dims} {R : Rot K} (hR : Exact D R) (hn : D.dx = D.ny)
    (hdt : 0 < D.dt) (hdx : 0 < D.dx) (data : Nat → Nat → Nat → K) (x : Nat → Img K) (s i : Nat)
    (hi : i < D.nx * D.ny) (v : K) (hv : ∀ p < D.dt, contrib A D R data x p s i = v) :
    iter A D R data x s i = combine A (x s i) (v / D.dx) := by
  have hdt' : (D.dt : K) ≠ 0 := Nat.cast_ne_zero.2 (by omega)
  unfold iter apply
  dsimp only
  rw [sumDist_full hR hn hi, if_pos ⟨by omega, by omega⟩, list_sum_range,
    Finset.sum_congr rfl (fun p hp => hv p (Finset.mem_range.1 hp)), Finset.sum_const,
    Finset.card_range, nsmul_eq_mul, mul_div_cancel_left₀ _ hdt']

/-- `sirt` multiplies an image that agrees with the data by `1 + 1/dx`. -/
theorem sirt_consistent_grows (D : Dims) (R : Rot K) (hR : Exact D R) (hn : D.dx = D.ny)
    (hdt : 0 < D.dt) (hdx : 0 < D.dx) (data : Nat → Nat → Nat → K) (x : Nat → Img K) (s : Nat)
    (hc : Consistent D R data (x s) s) (i : Nat) (hi : i < D.nx * D.ny) :
    iter .sirt D R data x s i = x s i * (1 + 1 / D.dx) := by
  have hdx' : (D.dx : K) ≠ 0 := Nat.cast_ne_zero.2 (by omega)
  rw [iter_uniform hR hn hdt hdx data x s i hi (x s i)]
  · simp only [combine]
    field_simp
  · intro p hp
    refine hR.back p hp (x s) _ ?_ i hi
    intro j hj
    rw [simulate_value]
    split_ifs with h
    · rw [hc p hp _ h.1, residual, sub_self, add_zero]
    · rw [add_zero]

/-- So a non-zero pixel of an image that agrees with the data always changes. -/
theorem sirt_not_fixed (D : Dims) (R : Rot K) (hR : Exact D R) (hn : D.dx = D.ny)
    (hdt : 0 < D.dt) (hdx : 0 < D.dx) (data : Nat → Nat → Nat → K) (x : Nat → Img K) (s : Nat)
    (hc : Consistent D R data (x s) s) (i : Nat) (hi : i < D.nx * D.ny) (hx : x s i ≠ 0) :
    iter .sirt D R data x s i ≠ x s i := by
  rw [sirt_consistent_grows D R hR hn hdt hdx data x s hc i hi]
  have hdx' : (D.dx : K) ≠ 0 := Nat.cast_ne_zero.2 (by omega)
  intro h
  have h2 : x s i * (1 / (D.dx : K)) = 0 := by
    have : x s i * (1 + 1 / (D.dx : K)) = x s i + x s i * (1 / (D.dx : K)) := by ring
    rw [this] at h
    simpa using h
  rcases mul_eq_zero.1 h2 with h3 | h3
  · exact hx h3
  · exact one_div_ne_zero hdx' h3

/-- `mlem` turns an image that agrees with the data into `x * (x + 1) / dx`. -/
theorem mlem_consistent (D : Dims) (R : Rot K) (hR : Exact D R) (hn : D.dx = D.ny)
    (hdt : 0 < D.dt) (hdx : 0 < D.dx) (data : Nat → Nat → Nat → K)
    (x : Nat → Img K) (s : Nat) (hc : Consistent D R data (x s) s)
    (hz : ∀ p < D.dt, ∀ d < D.dx, data s p d ≠ 0) (i : Nat) (hi : i < D.nx * D.ny) :
    iter .mlem D R data x s i = x s i * (x s i + 1) / D.dx := by
  rw [iter_uniform hR hn hdt hdx data x s i hi (x s i + 1)]
  · simp only [combine]
    ring
  · intro p hp
    refine hR.back p hp (fun j => x s j + 1) _ ?_ i hi
    intro j hj
    have hrow : j / D.nx < D.dx := by
      rw [hn]
      exact Nat.div_lt_of_lt_mul hj
    have hsum := hc p hp _ hrow
    rw [simulate_value, if_pos ⟨hrow, by rw [hsum]; exact hz p hp _ hrow⟩, hR.const p hp _ _ j hj,
      hsum, residual, div_self (hz p hp _ hrow)]

/-- So a non-zero pixel of such an image stays only if it is `dx - 1`. -/
theorem mlem_fixed_iff (D : Dims) (R : Rot K) (hR : Exact D R) (hn : D.dx = D.ny)
    (hdt : 0 < D.dt) (hdx : 0 < D.dx) (data : Nat → Nat → Nat → K)
    (x : Nat → Img K) (s : Nat) (hc : Consistent D R data (x s) s)
    (hz : ∀ p < D.dt, ∀ d < D.dx, data s p d ≠ 0) (i : Nat) (hi : i < D.nx * D.ny)
    (hx : x s i ≠ 0) :
    iter .mlem D R data x s i = x s i ↔ x s i = (D.dx : K) - 1 := by
  rw [mlem_consistent D R hR hn hdt hdx data x s hc hz i hi]
  have hdx' : (D.dx : K) ≠ 0 := Nat.cast_ne_zero.2 (by omega)
  rw [div_eq_iff hdx']
  constructor
  · intro h
    have := mul_left_cancel₀ hx h
    rw [← this]
    ring
  · intro h
    rw [h]
    ring

/-! ### One projection at angle -pi/2: no rotation -/

/-- The rotation by zero (sirt.cc:137 with `theta[p] = -pi/2`). -/
def still : Rot K := ⟨fun _ im => im, fun _ im => im, fun _ _ => true⟩

theorem still_exact (D : Dims) : Exact D (still (K := K)) where
  back _ _ _ _ h := h
  const _ _ _ _ _ _ := rfl
  cover _ _ _ _ := rfl

theorem still_zero : KeepsZero (still (K := K)) := fun _ => ⟨rfl, rfl⟩

theorem still_positive : Positive (still (K := K)) := fun _ _ h => ⟨h, h⟩

/-- One iteration of `sirt` with a single projection: the new sum of a row is the datum plus the
old sum over the number of pixels. -/
theorem sirt_single_row (n : Nat) (hn : 0 < n) (data : Nat → Nat → Nat → K) (x : Nat → Img K)
    (d : Nat) (hd : d < n) (hz : rowSum n (x 0) d ≠ 0) :
    rowSum n (iter .sirt ⟨1, 1, n, n, n⟩ still data x 0) d =
      data 0 0 d + rowSum n (x 0) d / n := by
  have hn' : (n : K) ≠ 0 := Nat.cast_ne_zero.2 (by omega)
  have hpix : ∀ i < n, iter .sirt ⟨1, 1, n, n, n⟩ still data x 0 (d * n + i) =
      x 0 (d * n + i) + (x 0 (d * n + i) + (data 0 0 d - rowSum n (x 0) d)) / n := by
    intro i hi
    have hq : (d * n + i) / n = d := by
      rw [Nat.mul_comm, Nat.mul_add_div hn, Nat.div_eq_of_lt hi, Nat.add_zero]
    have hlt : d * n + i < n * n := by
      calc d * n + i < d * n + n := by omega
        _ = (d + 1) * n := by ring
        _ ≤ n * n := Nat.mul_le_mul_right _ hd
    rw [iter_uniform (D := ⟨1, 1, n, n, n⟩) (still_exact _) rfl Nat.one_pos hn data x 0 _ hlt
      (x 0 (d * n + i) + (data 0 0 d - rowSum n (x 0) d))]
    · rfl
    · intro p hp
      have hp0 : p = 0 := by
        have : p < 1 := hp
        omega
      subst hp0
      change simulate .sirt ⟨1, 1, n, n, n⟩ (data 0 0) (x 0) (d * n + i) = _
      rw [simulate_value]
      dsimp only
      rw [hq, if_pos ⟨hd, hz⟩, residual]
  have : rowSum n (iter .sirt ⟨1, 1, n, n, n⟩ still data x 0) d =
      ∑ i ∈ Finset.range n, (x 0 (d * n + i) +
        (x 0 (d * n + i) + (data 0 0 d - rowSum n (x 0) d)) / n) :=
    Finset.sum_congr rfl fun i hi => hpix i (Finset.mem_range.1 hi)
  rw [this, Finset.sum_add_distrib, ← Finset.sum_div, Finset.sum_add_distrib, Finset.sum_const,
    Finset.card_range, nsmul_eq_mul]
  change rowSum n (x 0) d + (rowSum n (x 0) d + _) / _ = _
  field_simp
  ring

/-- With positive data and a positive image, the sums tend to `n/(n-1)` times the data: after `k`
iterations the distance from that value is the initial one over `n^k`. -/
theorem sirt_bias (n : Nat) (hn : 2 ≤ n) (data : Nat → Nat → Nat → K) (x : Nat → Img K) (d : Nat)
    (hd : d < n) (hb : 0 < data 0 0 d) (hz : 0 < rowSum n (x 0) d) (k : Nat) :
    rowSum n ((iter .sirt ⟨1, 1, n, n, n⟩ still data)^[k] x 0) d =
      data 0 0 d * n / (n - 1) + (rowSum n (x 0) d - data 0 0 d * n / (n - 1)) / (n : K) ^ k := by
  have hn' : (n : K) ≠ 0 := Nat.cast_ne_zero.2 (by omega)
  have h1 : (1 : K) < n := by exact_mod_cast hn
  have hn1 : (n : K) - 1 ≠ 0 := by
    have : (0 : K) < n - 1 := by linarith
    exact this.ne'
  have hpos : ∀ k (x : Nat → Img K), 0 < rowSum n (x 0) d →
      0 < rowSum n ((iter .sirt ⟨1, 1, n, n, n⟩ still data)^[k] x 0) d := by
    intro k
    induction k with
    | zero => intro x h; exact h
    | succ k ih =>
      intro x h
      rw [Function.iterate_succ_apply]
      apply ih
      rw [sirt_single_row n (by omega) data x d hd h.ne']
      have : (0 : K) < n := by linarith
      positivity
  induction k with
  | zero => simp
  | succ k ih =>
    rw [Function.iterate_succ_apply', sirt_single_row n (by omega) data _ d hd (hpos k x hz).ne', ih]
    field_simp
    ring

/-- Non-trivial case: one row of sum 4 and datum 6, grid of 3 by 3; the limit is 9, not 6. -/
example : rowSum 3 ((iter (K := ℚ) .sirt ⟨1, 1, 3, 3, 3⟩ still (fun _ _ _ => 6))^[2]
    (fun _ j => if j = 0 then 2 else 1) 0) 0 = 9 + (4 - 9) / 9 := by decide +kernel

/-! ### Quarter turns about the middle of an odd grid are exact -/

/-- Quarter turns (specification): the four pairs of cosine and sine. -/
def IsQuarter (q : ℤ × ℤ) : Prop := q = (1, 0) ∨ q = (0, 1) ∨ q = (-1, 0) ∨ q = (0, -1)

theorem quarter_pos (c u v : Nat) (hu : u < 2 * c + 1) (hv : v < 2 * c + 1) (q : ℤ × ℤ)
    (hq : IsQuarter q) : ∃ x y : Nat, x < 2 * c + 1 ∧ y < 2 * c + 1 ∧
      (c : ℤ) + q.1 * ((u : ℤ) - c) - q.2 * ((v : ℤ) - c) = x ∧
      (c : ℤ) + q.2 * ((u : ℤ) - c) + q.1 * ((v : ℤ) - c) = y := by
  rcases hq with h | h | h | h
  · exact ⟨u, v, hu, hv, by rw [h]; ring, by rw [h]; ring⟩
  · refine ⟨2 * c - v, u, by omega, hu, ?_, ?_⟩
    · rw [h]; push_cast [Nat.cast_sub (show v ≤ 2 * c by omega)]; ring
    · rw [h]; ring
  · refine ⟨2 * c - u, 2 * c - v, by omega, by omega, ?_, ?_⟩
    · rw [h]; push_cast [Nat.cast_sub (show u ≤ 2 * c by omega)]; ring
    · rw [h]; push_cast [Nat.cast_sub (show v ≤ 2 * c by omega)]; ring
  · refine ⟨v, 2 * c - u, hv, by omega, ?_, ?_⟩
    · rw [h]; ring
    · rw [h]; push_cast [Nat.cast_sub (show u ≤ 2 * c by omega)]; ring

theorem turnSrc_odd (c : Nat) (q : ℤ × ℤ) (hq : IsQuarter q) (j : Nat)
    (hj : j < (2 * c + 1) * (2 * c + 1)) :
    ∃ k < (2 * c + 1) * (2 * c + 1), turnSrc (2 * c + 1) q.1 q.2 j = some k ∧
      turnSrc (2 * c + 1) q.1 (-q.2) k = some j := by
  set n := 2 * c + 1 with hn
  have hpos : 0 < n := by omega
  have hc : n / 2 = c := by omega
  have hu := Nat.mod_lt j hpos
  have hv : j / n < n := Nat.div_lt_of_lt_mul hj
  have hjj := Nat.div_add_mod j n
  set u := j % n with hu'
  set v := j / n with hv'
  obtain ⟨x, y, hx, hy, hxq, hyq⟩ := quarter_pos c u v (hn ▸ hu) (hn ▸ hv) q hq
  rw [← hn] at hx hy
  have hk : y * n + x < n * n := by
    calc y * n + x < y * n + n := by omega
      _ = (y + 1) * n := by ring
      _ ≤ n * n := Nat.mul_le_mul_right _ hy
  have hkm : (y * n + x) % n = x := by
    rw [Nat.mul_comm, Nat.mul_add_mod, Nat.mod_eq_of_lt hx]
  have hkd : (y * n + x) / n = y := by
    rw [Nat.mul_comm, Nat.mul_add_div hpos, Nat.div_eq_of_lt hx, Nat.add_zero]
  have h1 : q.1 * q.1 + q.2 * q.2 = 1 := by
    rcases hq with h | h | h | h <;> rw [h] <;> norm_num
  refine ⟨y * n + x, hk, ?_, ?_⟩
  · unfold turnSrc
    simp only [hc, ← hu', ← hv']
    rw [hxq, hyq, if_pos ⟨Int.natCast_nonneg _, Int.ofNat_lt.2 hx, Int.natCast_nonneg _, Int.ofNat_lt.2 hy⟩,
      Int.toNat_natCast, Int.toNat_natCast]
  · have hxu : (c : ℤ) + q.1 * ((x : ℤ) - c) - -q.2 * ((y : ℤ) - c) = u := by
      rw [← hxq, ← hyq]
      linear_combination ((u : ℤ) - c) * h1
    have hyv : (c : ℤ) + -q.2 * ((x : ℤ) - c) + q.1 * ((y : ℤ) - c) = v := by
      rw [← hxq, ← hyq]
      linear_combination ((v : ℤ) - c) * h1
    unfold turnSrc
    simp only [hc, hkm, hkd]
    rw [hxu, hyv, if_pos ⟨Int.natCast_nonneg _, Int.ofNat_lt.2 hu, Int.natCast_nonneg _,
      Int.ofNat_lt.2 hv⟩, Int.toNat_natCast, Int.toNat_natCast]
    congr 1
    rw [Nat.mul_comm]
    exact hjj

/-- Scans in quarter turns on odd square grids have exact rotations. -/
theorem quarter_exact (c : Nat) (q : Nat → ℤ × ℤ) (hq : ∀ p, IsQuarter (q p)) (D : Dims)
    (h1 : D.nx = 2 * c + 1) (h2 : D.ny = 2 * c + 1) :
    Exact D (quarterRot (K := K) (2 * c + 1) q) where
  back p _ im im' h j hj := by
    rw [h1, h2] at hj h
    obtain ⟨k, hk, hjk, hkj⟩ := turnSrc_odd c (q p) (hq p) j hj
    simp only [quarterRot, turn, hjk]
    rw [h k hk]
    simp only [quarterRot, turn, hkj]
  const p _ im a j hj := by
    rw [h1, h2] at hj
    have hq' : IsQuarter ((q p).1, -(q p).2) := by
      rcases hq p with h | h | h | h <;> rw [h] <;> simp [IsQuarter]
    obtain ⟨k, hk, hjk, -⟩ := turnSrc_odd c ((q p).1, -(q p).2) hq' j hj
    simp only [quarterRot, turn]
    rw [hjk]
  cover p _ j hj := by
    rw [h1, h2] at hj
    have hq' : IsQuarter ((q p).1, -(q p).2) := by
      rcases hq p with h | h | h | h <;> rw [h] <;> simp [IsQuarter]
    obtain ⟨k, hk, hjk, -⟩ := turnSrc_odd c ((q p).1, -(q p).2) hq' j hj
    simp only [quarterRot]
    rw [hjk]
    rfl

/-- On even grids a half turn about pixel `n/2` leaves the first row and the first column without a
source: they become zero. -/
theorem even_hole (c : Nat) (im : Img K) (j : Nat) (hj : j / (2 * c) = 0 ∨ j % (2 * c) = 0) :
    turn (2 * c) (-1) 0 im j = 0 := by
  have hc : 2 * c / 2 = c := by omega
  have : turnSrc (2 * c) (-1) 0 j = none := by
    unfold turnSrc
    simp only [hc]
    rw [if_neg]
    rcases hj with hj | hj
    · rw [hj]
      push_cast
      omega
    · rw [hj]
      push_cast
      omega
  unfold turn
  rw [this]

/-- Non-trivial case: two projections of a 3 by 3 image with data that agree; the pixels grow from
1 to 4/3 in `sirt` and shrink to 2/3 in `mlem`. -/
example : (iter (K := ℚ) .sirt ⟨1, 2, 3, 3, 3⟩ (quarterRot 3 fun p => if p = 0 then (0, 1) else (-1, 0))
      (fun _ _ _ => 3) (fun _ _ => 1) 0 4 = 4 / 3) ∧
    (iter (K := ℚ) .mlem ⟨1, 2, 3, 3, 3⟩ (quarterRot 3 fun p => if p = 0 then (0, 1) else (-1, 0))
      (fun _ _ _ => 3) (fun _ _ => 1) 0 4 = 2 / 3) := by decide +kernel

example : Consistent (K := ℚ) ⟨1, 2, 3, 3, 3⟩
    (quarterRot 3 fun p => if p = 0 then (0, 1) else (-1, 0)) (fun _ _ _ => 3) (fun _ => 1) 0 := by
  unfold Consistent
  decide +kernel

end Tomopy.Accel
