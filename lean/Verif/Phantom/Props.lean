import Verif.Phantom.Model
import Mathlib.Tactic.Ring
import Mathlib.Tactic.Linarith
import Mathlib.Tactic.FieldSimp
import Mathlib.Tactic.LinearCombination

/-! C54: phantoms are sums of ellipsoids. -/

namespace Tomopy.Phantom

noncomputable section

/-! ### Specification -/

/-- Rotation about the third axis. -/
def rotZ (t : ℝ) (p : V3) : V3 :=
  ⟨Real.cos t * p.x - Real.sin t * p.y, Real.sin t * p.x + Real.cos t * p.y, p.z⟩

/-- Rotation about the first axis. -/
def rotX (t : ℝ) (p : V3) : V3 :=
  ⟨p.x, Real.cos t * p.y - Real.sin t * p.z, Real.sin t * p.y + Real.cos t * p.z⟩

/-- The points of an ellipsoid: the unit ball stretched by the half axes, moved by the offset and
then turned by the three Euler angles. -/
def InEll (e : Ell) (p : V3) : Prop :=
  ∃ u : V3, u.x ^ 2 + u.y ^ 2 + u.z ^ 2 ≤ 1 ∧
    p = rotZ (radians e.phi) (rotX (radians e.theta) (rotZ (radians e.psi)
      ⟨e.a * u.x + e.x0, e.b * u.y + e.y0, e.c * u.z + e.z0⟩))

/-! ### Rotations -/

theorem rotZ_inv (t : ℝ) (p : V3) : rotZ (-t) (rotZ t p) = p := by
  have h := Real.sin_sq_add_cos_sq t
  unfold rotZ
  ext <;> simp only [Real.cos_neg, Real.sin_neg]
  · linear_combination p.x * h
  · linear_combination p.y * h

theorem rotX_inv (t : ℝ) (p : V3) : rotX (-t) (rotX t p) = p := by
  have h := Real.sin_sq_add_cos_sq t
  unfold rotX
  ext <;> simp only [Real.cos_neg, Real.sin_neg]
  · linear_combination p.y * h
  · linear_combination p.z * h

/-- The matrix of the code undoes the three rotations. -/
theorem rotate_eq (e : Ell) (p : V3) :
    rotate e p = rotZ (-radians e.psi) (rotX (-radians e.theta) (rotZ (-radians e.phi) p)) := by
  unfold rotate rotZ rotX
  ext <;> simp only [Real.cos_neg, Real.sin_neg] <;> ring

theorem rotate_inv (e : Ell) (p : V3) :
    rotZ (radians e.phi) (rotX (radians e.theta) (rotZ (radians e.psi) (rotate e p))) = p := by
  have hz : ∀ t p, rotZ t (rotZ (-t) p) = p := fun t p => by simpa using rotZ_inv (-t) p
  have hx : ∀ t p, rotX t (rotX (-t) p) = p := fun t p => by simpa using rotX_inv (-t) p
  rw [rotate_eq, hz, hx, hz]

/-- The rotation keeps distances from the origin: ellipsoids keep their shape. -/
theorem rotate_isometry (e : Ell) (p q : V3) :
    ((rotate e p).x - (rotate e q).x) ^ 2 + ((rotate e p).y - (rotate e q).y) ^ 2
      + ((rotate e p).z - (rotate e q).z) ^ 2
      = (p.x - q.x) ^ 2 + (p.y - q.y) ^ 2 + (p.z - q.z) ^ 2 := by
  have hz : ∀ (t : ℝ) (p q : V3), ((rotZ t p).x - (rotZ t q).x) ^ 2
      + ((rotZ t p).y - (rotZ t q).y) ^ 2 + ((rotZ t p).z - (rotZ t q).z) ^ 2
      = (p.x - q.x) ^ 2 + (p.y - q.y) ^ 2 + (p.z - q.z) ^ 2 := by
    intro t p q
    have h := Real.sin_sq_add_cos_sq t
    unfold rotZ
    dsimp only
    linear_combination ((p.x - q.x) ^ 2 + (p.y - q.y) ^ 2) * h
  have hx : ∀ (t : ℝ) (p q : V3), ((rotX t p).x - (rotX t q).x) ^ 2
      + ((rotX t p).y - (rotX t q).y) ^ 2 + ((rotX t p).z - (rotX t q).z) ^ 2
      = (p.x - q.x) ^ 2 + (p.y - q.y) ^ 2 + (p.z - q.z) ^ 2 := by
    intro t p q
    have h := Real.sin_sq_add_cos_sq t
    unfold rotX
    dsimp only
    linear_combination ((p.y - q.y) ^ 2 + (p.z - q.z) ^ 2) * h
  rw [rotate_eq, rotate_eq, hz, hx, hz]

/-- **C54** (region).  For non-zero half axes the mask consists of the points of the ellipsoid. -/
theorem mask_iff (e : Ell) (ha : e.a ≠ 0) (hb : e.b ≠ 0) (hc : e.c ≠ 0) (p : V3) :
    mask e p = true ↔ InEll e p := by
  have e1 : transform e p = some ⟨((rotate e p).x - e.x0) / e.a, ((rotate e p).y - e.y0) / e.b,
      ((rotate e p).z - e.z0) / e.c⟩ := by
    unfold transform
    dsimp only
    rw [if_neg (by simp [ha, hb, hc])]
  unfold mask
  rw [e1]
  simp only [decide_eq_true_eq]
  constructor
  · intro h
    refine ⟨⟨((rotate e p).x - e.x0) / e.a, ((rotate e p).y - e.y0) / e.b,
      ((rotate e p).z - e.z0) / e.c⟩, h, ?_⟩
    dsimp only
    rw [mul_div_cancel₀ _ ha, mul_div_cancel₀ _ hb, mul_div_cancel₀ _ hc, sub_add_cancel,
      sub_add_cancel, sub_add_cancel]
    exact (rotate_inv e p).symm
  · rintro ⟨u, hu, rfl⟩
    rw [rotate_eq, rotZ_inv, rotX_inv, rotZ_inv]
    dsimp only
    rw [add_sub_cancel_right, add_sub_cancel_right, add_sub_cancel_right, mul_div_cancel_left₀ _ ha,
      mul_div_cancel_left₀ _ hb, mul_div_cancel_left₀ _ hc]
    exact hu

/-- An ellipsoid with a zero half axis adds nothing. -/
theorem mask_degenerate (e : Ell) (h : e.a = 0 ∨ e.b = 0 ∨ e.c = 0) (p : V3) : mask e p = false := by
  unfold mask transform
  dsimp only
  rw [if_pos h]

/-! ### Sums -/

theorem foldl_value (nx ny nz : Nat) (i j k : Nat) : ∀ (params : List Ell) (obj : Nat → Nat → Nat → ℝ),
    params.foldl (fun obj e => ellipsoid e nx ny nz obj) obj i j k
      = obj i j k + (params.map fun e => if mask e (voxel nx ny nz i j k) then e.A else 0).sum := by
  intro params
  induction params with
  | nil => intro obj; simp
  | cons e params ih =>
    intro obj
    rw [List.foldl_cons, ih, List.map_cons, List.sum_cons]
    unfold ellipsoid
    split_ifs <;> ring

open Classical in
/-- **C54** (sum).  Every voxel of a phantom is the sum of the values of the ellipsoids in which
its position lies. -/
theorem phantom_sum (nx ny nz : Nat) (params : List Ell)
    (hp : ∀ e ∈ params, e.a ≠ 0 ∧ e.b ≠ 0 ∧ e.c ≠ 0) (i j k : Nat) :
    phantom nx ny nz params i j k
      = (params.map fun e => if InEll e (voxel nx ny nz i j k) then e.A else 0).sum := by
  unfold phantom
  rw [foldl_value, zero_add]
  congr 1
  apply List.map_congr_left
  intro e he
  obtain ⟨ha, hb, hc⟩ := hp e he
  by_cases h : InEll e (voxel nx ny nz i j k)
  · rw [if_pos h, if_pos ((mask_iff e ha hb hc _).2 h)]
  · rw [if_neg h, if_neg fun h' => h ((mask_iff e ha hb hc _).1 h')]

/-- **C54** (order).  The order of the ellipsoids does not matter. -/
theorem phantom_perm (nx ny nz : Nat) (ps qs : List Ell) (h : ps.Perm qs) :
    phantom nx ny nz ps = phantom nx ny nz qs := by
  funext i j k
  unfold phantom
  rw [foldl_value, foldl_value]
  rw [(h.map _).sum_eq]

/-- **C54** (additive).  The phantom of two lists together is the sum of their phantoms. -/
theorem phantom_append (nx ny nz : Nat) (ps qs : List Ell) (i j k : Nat) :
    phantom nx ny nz (ps ++ qs) i j k = phantom nx ny nz ps i j k + phantom nx ny nz qs i j k := by
  unfold phantom
  rw [foldl_value, foldl_value, foldl_value, List.map_append, List.sum_append]
  ring

/-- **C54** (non-negative).  The Shepp-Logan phantom is nowhere negative, and its voxels are the sums
over its ellipsoids wherever these are not negative. -/
theorem shepp3d_nonneg (nx ny nz i j k : Nat) :
    0 ≤ shepp3d nx ny nz i j k ∧ phantom nx ny nz shepp i j k ≤ shepp3d nx ny nz i j k ∧
    (0 ≤ phantom nx ny nz shepp i j k →
      shepp3d nx ny nz i j k = phantom nx ny nz shepp i j k) := by
  unfold shepp3d
  exact ⟨le_max_right _ _, le_max_left _ _, fun h => max_eq_left h⟩

theorem shepp_axes : ∀ e ∈ shepp, e.a ≠ 0 ∧ e.b ≠ 0 ∧ e.c ≠ 0 := by
  intro e he
  simp only [shepp, List.mem_cons, List.not_mem_nil, or_false] at he
  rcases he with rfl | rfl | rfl | rfl | rfl | rfl | rfl | rfl | rfl | rfl <;> norm_num

/-! ### The grid -/

/-- The voxels run from -1 to 1 along an axis with at least two of them, equally spaced and
symmetric about 0. -/
theorem coord_range (n i : Nat) (hn : 2 ≤ n) (hi : i < n) :
    -1 ≤ coord n i ∧ coord n i ≤ 1 ∧ coord n 0 = -1 ∧ coord n (n - 1) = 1 ∧
      coord n (n - 1 - i) = -coord n i := by
  have h1 : (0 : ℝ) < (n : ℝ) - 1 := by
    have : (1 : ℝ) < n := by exact_mod_cast hn
    linarith
  have hc : ∀ i, coord n i = 2 * ((i : ℝ) / ((n : ℝ) - 1)) - 1 := by
    intro i
    unfold coord
    rw [if_neg (by omega)]
    ring
  have hi' : (i : ℝ) ≤ (n : ℝ) - 1 := by
    have : (i : ℝ) + 1 ≤ n := by exact_mod_cast hi
    linarith
  have hd : (i : ℝ) / ((n : ℝ) - 1) ≤ 1 := by rw [div_le_one h1]; exact hi'
  have hd' : 0 ≤ (i : ℝ) / ((n : ℝ) - 1) := by positivity
  have e1 : ((n - 1 : Nat) : ℝ) = (n : ℝ) - 1 := by rw [Nat.cast_sub (by omega)]; simp
  have e2 : ((n - 1 - i : Nat) : ℝ) = (n : ℝ) - 1 - i := by rw [Nat.cast_sub (by omega), e1]
  refine ⟨by rw [hc]; linarith, by rw [hc]; linarith, by rw [hc]; simp, ?_, ?_⟩
  · rw [hc, e1, div_self h1.ne']; norm_num
  · rw [hc, hc, e2, sub_div, div_self h1.ne']; ring

/-- A single voxel along an axis sits at -1, not in the middle. -/
theorem coord_single : coord 1 0 = -1 := by simp [coord]

open Classical in
example (i j k : Nat) : phantom 8 8 8 shepp i j k
    = (shepp.map fun e => if InEll e (voxel 8 8 8 i j k) then e.A else 0).sum :=
  phantom_sum 8 8 8 shepp shepp_axes i j k

/-- A concrete ellipsoid with a voxel inside and one outside. -/
example : InEll ⟨1, 1 / 2, 1, 1, 0, 0, 0, 0, 0, 0⟩ (voxel 3 3 3 1 1 1) ∧
    ¬ InEll ⟨1, 1 / 2, 1, 1, 0, 0, 0, 0, 0, 0⟩ (voxel 3 3 3 0 1 1) := by
  rw [← mask_iff _ (by norm_num) (by norm_num) (by norm_num),
    ← mask_iff _ (by norm_num) (by norm_num) (by norm_num)]
  constructor <;> simp [mask, transform, rotate, voxel, coord, radians] <;> norm_num

end

end Tomopy.Phantom
