import Verif.Iter.ConvArt
import Verif.Iter.Landweber
import Mathlib.Analysis.SpecificLimits.Basic
import Mathlib.Analysis.Normed.Module.FiniteDimension
import Mathlib.Topology.Algebra.Module.FiniteDimension

/-!
# `art` converges for all data (C155)

The first part is about cyclic projections onto arbitrary hyperplanes, which need not meet.
-/

set_option linter.unusedSectionVars false

namespace Tomopy.Iter

open Filter Topology Matrix

namespace Kz

variable {I : Type} [Fintype I]

/-- The projection onto the hyperplane `a ⬝ x = b`; nothing if `a = 0` (specification). -/
noncomputable def proj (x : I → ℝ) (h : (I → ℝ) × ℝ) : I → ℝ :=
  x + ((h.2 - h.1 ⬝ᵥ x) / (h.1 ⬝ᵥ h.1)) • h.1

/-- One projection after the other. -/
noncomputable def sweep (L : List ((I → ℝ) × ℝ)) (x : I → ℝ) : I → ℝ := L.foldl proj x

/-- The same hyperplanes moved to the origin. -/
def hom (L : List ((I → ℝ) × ℝ)) : List ((I → ℝ) × ℝ) := L.map fun h => (h.1, 0)

/-- The combinations of the normals. -/
def rows (L : List ((I → ℝ) × ℝ)) : Submodule ℝ (I → ℝ) := Submodule.span ℝ {a | ∃ b, (a, b) ∈ L}

theorem proj_sub (x y : I → ℝ) (h : (I → ℝ) × ℝ) : proj x h - proj y h = proj (x - y) (h.1, 0) := by
  unfold proj
  funext i
  simp only [Pi.sub_apply, Pi.add_apply, Pi.smul_apply, smul_eq_mul, dotProduct_sub]
  ring

theorem sweep_sub (L : List ((I → ℝ) × ℝ)) : ∀ x y, sweep L x - sweep L y = sweep (hom L) (x - y) := by
  induction L with
  | nil => intro x y; rfl
  | cons h L ih =>
    intro x y
    show sweep L (proj x h) - sweep L (proj y h) = sweep (hom L) (proj (x - y) (h.1, 0))
    rw [ih, proj_sub]

theorem proj0_norm (x a : I → ℝ) :
    proj x (a, 0) ⬝ᵥ proj x (a, 0) + (a ⬝ᵥ x) ^ 2 / (a ⬝ᵥ a) = x ⬝ᵥ x := by
  unfold proj
  simp only [zero_sub]
  by_cases h : a ⬝ᵥ a = 0
  · rw [Lw.dot_zero_iff.mp h]; simp
  · rw [dotProduct_add, add_dotProduct, add_dotProduct, dotProduct_smul, smul_dotProduct, dotProduct_smul,
      smul_dotProduct, dotProduct_comm x a]
    simp only [smul_eq_mul]
    field_simp
    ring

theorem sweep0_le (L : List ((I → ℝ) × ℝ)) : ∀ x,
    sweep (hom L) x ⬝ᵥ sweep (hom L) x ≤ x ⬝ᵥ x := by
  induction L with
  | nil => intro x; exact le_rfl
  | cons h L ih =>
    intro x
    have h1 := ih (proj x (h.1, 0))
    have h2 := proj0_norm x h.1
    have h3 : 0 ≤ (h.1 ⬝ᵥ x) ^ 2 / (h.1 ⬝ᵥ h.1) := div_nonneg (sq_nonneg _) (Pdhg.dot_self_nonneg _)
    show sweep (hom L) (proj x (h.1, 0)) ⬝ᵥ sweep (hom L) (proj x (h.1, 0)) ≤ _
    linarith

theorem sweep0_eq (L : List ((I → ℝ) × ℝ)) : ∀ x, x ⬝ᵥ x ≤ sweep (hom L) x ⬝ᵥ sweep (hom L) x →
    ∀ h ∈ L, h.1 ⬝ᵥ x = 0 := by
  induction L with
  | nil => intro x _ h hh; simp at hh
  | cons h L ih =>
    intro x hx
    have h1 := sweep0_le L (proj x (h.1, 0))
    have h2 := proj0_norm x h.1
    have h3 : 0 ≤ (h.1 ⬝ᵥ x) ^ 2 / (h.1 ⬝ᵥ h.1) := div_nonneg (sq_nonneg _) (Pdhg.dot_self_nonneg _)
    have hx' : x ⬝ᵥ x ≤ sweep (hom L) (proj x (h.1, 0)) ⬝ᵥ sweep (hom L) (proj x (h.1, 0)) := hx
    have h4 : (h.1 ⬝ᵥ x) ^ 2 / (h.1 ⬝ᵥ h.1) = 0 := by linarith
    have h5 : h.1 ⬝ᵥ x = 0 := by
      rcases div_eq_zero_iff.mp h4 with h5 | h5
      · exact pow_eq_zero_iff (two_ne_zero) |>.mp h5
      · rw [Lw.dot_zero_iff.mp h5, zero_dotProduct]
    have h6 : proj x (h.1, 0) = x := by unfold proj; simp [h5]
    rw [h6] at hx'
    intro h' hh'
    rcases List.mem_cons.mp hh' with rfl | hh'
    · exact h5
    · exact ih x hx' h' hh'

theorem proj_mem {L : List ((I → ℝ) × ℝ)} {h : (I → ℝ) × ℝ} (hh : h ∈ L) (x : I → ℝ) :
    proj x h - x ∈ rows L := by
  unfold proj
  rw [add_sub_cancel_left]
  exact Submodule.smul_mem _ _ (Submodule.subset_span ⟨h.2, hh⟩)

theorem sweep_mem (L : List ((I → ℝ) × ℝ)) (x : I → ℝ) : sweep L x - x ∈ rows L := by
  suffices h : ∀ l : List ((I → ℝ) × ℝ), (∀ h ∈ l, h ∈ L) → ∀ x, sweep l x - x ∈ rows L from
    h L (fun _ h => h) x
  intro l
  induction l with
  | nil => intro _ x; simp [sweep]
  | cons h l ih =>
    intro hl x
    have h1 := ih (fun t ht => hl t (List.mem_cons_of_mem _ ht)) (proj x h)
    have h2 := proj_mem (hl h List.mem_cons_self) x
    have := Submodule.add_mem _ h1 h2
    rwa [sub_add_sub_cancel] at this

theorem rows_hom (L : List ((I → ℝ) × ℝ)) : rows (hom L) = rows L := by
  unfold rows hom
  congr 1
  ext a
  constructor
  · rintro ⟨b, hb⟩
    obtain ⟨h, hh, e⟩ := List.mem_map.mp hb
    exact ⟨h.2, by rw [← (Prod.mk.inj e).1]; exact hh⟩
  · rintro ⟨b, hb⟩
    exact ⟨0, List.mem_map.mpr ⟨_, hb, rfl⟩⟩

theorem sweep0_mem {L : List ((I → ℝ) × ℝ)} {e : I → ℝ} (he : e ∈ rows L) :
    sweep (hom L) e ∈ rows L := by
  have := sweep_mem (hom L) e
  rw [rows_hom] at this
  have := Submodule.add_mem _ this he
  rwa [sub_add_cancel] at this

theorem rows_orth {L : List ((I → ℝ) × ℝ)} {x : I → ℝ} (hx : ∀ h ∈ L, h.1 ⬝ᵥ x = 0) {e : I → ℝ}
    (he : e ∈ rows L) : e ⬝ᵥ x = 0 := by
  unfold rows at he
  induction he using Submodule.span_induction with
  | mem a ha => obtain ⟨b, hb⟩ := ha; exact hx _ hb
  | zero => simp
  | add a b _ _ h1 h2 => rw [add_dotProduct, h1, h2, add_zero]
  | smul c a _ h => rw [smul_dotProduct, h, smul_zero]

theorem proj0_smul (c : ℝ) (x a : I → ℝ) : proj (c • x) (a, 0) = c • proj x (a, 0) := by
  unfold proj
  funext i
  simp only [Pi.add_apply, Pi.smul_apply, smul_eq_mul, dotProduct_smul]
  ring

theorem sweep0_smul (c : ℝ) (L : List ((I → ℝ) × ℝ)) : ∀ x,
    sweep (hom L) (c • x) = c • sweep (hom L) x := by
  induction L with
  | nil => intro x; rfl
  | cons h L ih =>
    intro x
    show sweep (hom L) (proj (c • x) (h.1, 0)) = c • sweep (hom L) (proj x (h.1, 0))
    rw [proj0_smul, ih]

theorem continuous_dot : Continuous fun x : I → ℝ => x ⬝ᵥ x := by
  unfold dotProduct
  fun_prop

theorem proj_continuous (h : (I → ℝ) × ℝ) : Continuous fun x : I → ℝ => proj x h := by
  unfold proj dotProduct
  fun_prop

theorem sweep_continuous (L : List ((I → ℝ) × ℝ)) : Continuous (sweep L) := by
  induction L with
  | nil => exact continuous_id
  | cons h L ih => exact ih.comp (proj_continuous h)

theorem abs_le_dot (e : I → ℝ) (i : I) : |e i| ≤ Real.sqrt (e ⬝ᵥ e) := by
  rw [← Real.sqrt_mul_self_eq_abs]
  apply Real.sqrt_le_sqrt
  exact Finset.single_le_sum (f := fun i => e i * e i) (fun i _ => mul_self_nonneg _) (Finset.mem_univ i)

/-- On the combinations of the normals a sweep shrinks by a fixed factor. -/
theorem contraction (L : List ((I → ℝ) × ℝ)) : ∃ κ, 0 ≤ κ ∧ κ < 1 ∧ ∀ e ∈ rows L,
    sweep (hom L) e ⬝ᵥ sweep (hom L) e ≤ κ * (e ⬝ᵥ e) := by
  classical
  let S : Set (I → ℝ) := {e | e ∈ rows L ∧ e ⬝ᵥ e = 1}
  have hcl : IsClosed S := by
    refine IsClosed.inter (Submodule.closed_of_finiteDimensional (rows L)) ?_
    exact isClosed_eq continuous_dot continuous_const
  have hS : IsCompact S := by
    refine (isCompact_univ_pi (fun _ : I => isCompact_Icc (a := (-1 : ℝ)) (b := 1))).of_isClosed_subset hcl ?_
    rintro e ⟨-, he⟩ i -
    have := abs_le_dot e i
    rw [he, Real.sqrt_one] at this
    exact abs_le.mp this
  by_cases hne : S.Nonempty
  · obtain ⟨e, he, hmax⟩ := hS.exists_isMaxOn hne
      ((continuous_dot.comp (sweep_continuous (hom L))).continuousOn)
    have hlt : sweep (hom L) e ⬝ᵥ sweep (hom L) e < 1 := by
      by_contra hge
      have h1 := sweep0_eq L e (by rw [he.2]; exact not_lt.mp hge)
      have := rows_orth h1 he.1
      rw [he.2] at this
      exact one_ne_zero this
    refine ⟨_, Pdhg.dot_self_nonneg _, hlt, fun v hv => ?_⟩
    by_cases h0 : v = 0
    · subst h0
      have := sweep0_le L 0
      simpa using this
    · have hp := Lw.dot_pos h0
      have hs := Real.sqrt_pos.mpr hp
      have hss := Real.mul_self_sqrt hp.le
      have hmem : (Real.sqrt (v ⬝ᵥ v))⁻¹ • v ∈ S := by
        refine ⟨Submodule.smul_mem _ _ hv, ?_⟩
        rw [dotProduct_smul, smul_dotProduct, smul_eq_mul, smul_eq_mul, ← mul_assoc, ← mul_inv, hss,
          inv_mul_cancel₀ hp.ne']
      have h1 : sweep (hom L) ((Real.sqrt (v ⬝ᵥ v))⁻¹ • v) ⬝ᵥ sweep (hom L) ((Real.sqrt (v ⬝ᵥ v))⁻¹ • v) ≤
        sweep (hom L) e ⬝ᵥ sweep (hom L) e := hmax hmem
      rw [sweep0_smul, dotProduct_smul, smul_dotProduct, smul_eq_mul, smul_eq_mul, ← mul_assoc, ← mul_inv,
        hss, inv_mul_le_iff₀ hp] at h1
      linarith
  · refine ⟨0, le_rfl, one_pos, fun v hv => ?_⟩
    have h0 : v = 0 := by
      by_contra h0
      apply hne
      have hp := Lw.dot_pos h0
      refine ⟨(Real.sqrt (v ⬝ᵥ v))⁻¹ • v, Submodule.smul_mem _ _ hv, ?_⟩
      rw [dotProduct_smul, smul_dotProduct, smul_eq_mul, smul_eq_mul, ← mul_assoc, ← mul_inv,
        Real.mul_self_sqrt hp.le, inv_mul_cancel₀ hp.ne']
    subst h0
    have := sweep0_le L 0
    simpa using this

theorem iterate_mem (L : List ((I → ℝ) × ℝ)) (x : I → ℝ) (k : ℕ) : (sweep L)^[k] x - x ∈ rows L := by
  induction k with
  | zero => simp
  | succ k ih =>
    rw [Function.iterate_succ_apply']
    have := Submodule.add_mem _ (sweep_mem L ((sweep L)^[k] x)) ih
    rwa [sub_add_sub_cancel] at this

/-- Repeated sweeps converge geometrically, whatever the hyperplanes, to the only point that a sweep
does not move and that differs from the starting point by a combination of the normals. -/
theorem converges (L : List ((I → ℝ) × ℝ)) (x : I → ℝ) : ∃ z, sweep L z = z ∧ z - x ∈ rows L ∧
    (∀ z', sweep L z' = z' → z' - x ∈ rows L → z' = z) ∧
    ∃ κ, 0 ≤ κ ∧ κ < 1 ∧ ∀ k, ((sweep L)^[k] x - z) ⬝ᵥ ((sweep L)^[k] x - z) ≤ κ ^ k * ((x - z) ⬝ᵥ (x - z)) := by
  obtain ⟨κ, k0, k1, hκ⟩ := contraction L
  -- the steps shrink
  have hstep : ∀ k, (sweep L)^[k + 1] x - (sweep L)^[k] x ∈ rows L ∧
      ((sweep L)^[k + 1] x - (sweep L)^[k] x) ⬝ᵥ ((sweep L)^[k + 1] x - (sweep L)^[k] x) ≤
        κ ^ k * ((sweep L x - x) ⬝ᵥ (sweep L x - x)) := by
    intro k
    induction k with
    | zero => exact ⟨sweep_mem L x, by simp⟩
    | succ k ih =>
      have e : (sweep L)^[k + 1 + 1] x - (sweep L)^[k + 1] x =
          sweep (hom L) ((sweep L)^[k + 1] x - (sweep L)^[k] x) := by
        rw [← sweep_sub, ← Function.iterate_succ_apply' (sweep L), ← Function.iterate_succ_apply' (sweep L)]
      rw [e]
      refine ⟨sweep0_mem ih.1, (hκ _ ih.1).trans ?_⟩
      rw [pow_succ']
      rw [mul_assoc]
      exact mul_le_mul_of_nonneg_left ih.2 k0
  have hc : CauchySeq fun k => (sweep L)^[k] x := by
    refine cauchySeq_of_le_geometric (Real.sqrt κ) (Real.sqrt ((sweep L x - x) ⬝ᵥ (sweep L x - x))) ?_ ?_
    · rw [Real.sqrt_lt' one_pos]; simpa using k1
    · intro k
      refine (dist_pi_le_iff (by positivity)).mpr fun i => ?_
      rw [dist_comm, Real.dist_eq]
      refine (abs_le_dot ((sweep L)^[k + 1] x - (sweep L)^[k] x) i).trans ?_
      refine (Real.sqrt_le_sqrt (hstep k).2).trans (le_of_eq ?_)
      rw [Real.sqrt_mul (pow_nonneg k0 k), Real.sqrt_eq_rpow, ← Real.rpow_natCast, ← Real.rpow_mul k0,
        mul_comm (k : ℝ), Real.rpow_mul k0, Real.rpow_natCast, ← Real.sqrt_eq_rpow, mul_comm]
  obtain ⟨z, hz⟩ := cauchySeq_tendsto_of_complete hc
  have hfix : sweep L z = z := by
    have h1 : Tendsto (fun k => (sweep L)^[k + 1] x) atTop (𝓝 z) := (tendsto_add_atTop_iff_nat 1).mpr hz
    simp only [Function.iterate_succ_apply'] at h1
    exact tendsto_nhds_unique (((sweep_continuous L).tendsto z).comp hz) h1
  have hmem : z - x ∈ rows L :=
    (Submodule.closed_of_finiteDimensional (rows L)).mem_of_tendsto (hz.sub_const x)
      (Eventually.of_forall fun k => iterate_mem L x k)
  refine ⟨z, hfix, hmem, fun z' h1 h2 => ?_, κ, k0, k1, fun k => ?_⟩
  · have h3 : z' - z ∈ rows L := by
      have := Submodule.sub_mem _ h2 hmem
      rwa [sub_sub_sub_cancel_right] at this
    have h4 := hκ _ h3
    rw [← sweep_sub, h1, hfix] at h4
    by_contra hne
    have := Lw.dot_pos (sub_ne_zero.mpr hne)
    nlinarith
  · induction k with
    | zero => simp
    | succ k ih =>
      have h3 : (sweep L)^[k] x - z ∈ rows L := by
        have := Submodule.sub_mem _ (iterate_mem L x k) hmem
        rwa [sub_sub_sub_cancel_right] at this
      have h4 := hκ _ h3
      rw [← sweep_sub, hfix, ← Function.iterate_succ_apply' (sweep L)] at h4
      refine h4.trans ?_
      rw [pow_succ', mul_assoc]
      exact mul_le_mul_of_nonneg_left ih k0

end Kz

/-! ## `art` -/

section Real

variable {D : Dims} {g : Geom ℝ} {data : Mem ℝ}

/-- Slice `s` as a vector. -/
def arX (D : Dims) (s : Nat) (r : Mem ℝ) : Fin D.N → ℝ := fun n => r (n + s * D.N)

/-- The hyperplanes of slice `s` in the order of `art`; a step for another slice is an empty one. -/
noncomputable def arL (D : Dims) (g : Geom ℝ) (data : Mem ℝ) (s : Nat) : List ((Fin D.N → ℝ) × ℝ) :=
  (artOrder D).map fun t => if t.2.2 = s then
    (fun n : Fin D.N => lenIn (g 0 t.1 t.2.1) n, data (D.data s t.1 t.2.1)) else (0, 0)

theorem kacz_proj (hg : GeomOk D g) (hone : GeomOnce D g) {t : Nat × Nat × Nat} (ht : t ∈ artOrder D)
    (s : Nat) (r : Mem ℝ) : arX D s (kacz D g data r t) = Kz.proj (arX D s r) (if t.2.2 = s then
    (fun n : Fin D.N => lenIn (g 0 t.1 t.2.1) n, data (D.data s t.1 t.2.1)) else (0, 0)) := by
  obtain ⟨ht1, ht2, ht3⟩ := mem_artOrder.mp ht
  have hok : ∀ e ∈ g 0 t.1 t.2.1, e.1 < D.N := fun e he => (hg 0 (by omega) _ ht1 _ ht2 e he).1
  funext n
  unfold arX
  rw [kacz_pixel hok n.2]
  by_cases hs : t.2.2 = s
  · subst hs
    rw [if_pos rfl]
    unfold Kz.proj
    have e1 : (fun n : Fin D.N => lenIn (g 0 t.1 t.2.1) n) ⬝ᵥ (fun n : Fin D.N => lenIn (g 0 t.1 t.2.1) n) =
        sumDist2 (g 0 t.1 t.2.1) := by
      rw [← sum_lenIn_sq hok (hone 0 (by omega) _ ht1 _ ht2)]
      exact Fin.sum_univ_eq_sum_range (fun n => lenIn (g 0 t.1 t.2.1) n * lenIn (g 0 t.1 t.2.1) n) D.N
    have e2 : (fun n : Fin D.N => lenIn (g 0 t.1 t.2.1) n) ⬝ᵥ (fun n : Fin D.N => r (n + t.2.2 * D.N)) =
        lineSum D.N t.2.2 (g 0 t.1 t.2.1) r := by
      rw [lineSum_eq_sum_lenIn hok, dotProduct_comm]
      exact Fin.sum_univ_eq_sum_range (fun n => r (n + t.2.2 * D.N) * lenIn (g 0 t.1 t.2.1) n) D.N
    simp only [Pi.add_apply, Pi.smul_apply, smul_eq_mul, e1, e2, true_and]
    by_cases h0 : sumDist2 (g 0 t.1 t.2.1) = 0
    · rw [if_neg (by simpa using h0), h0, div_zero, zero_mul]
    · rw [if_pos h0]
  · rw [if_neg hs, if_neg (fun h => hs h.1.symm)]
    unfold Kz.proj
    simp

theorem art_sweep (data : Mem ℝ) (hg : GeomOk D g) (hone : GeomOnce D g) (s : Nat) (recon : Mem ℝ) (k : Nat) :
    arX D s (art D g data k recon) = (Kz.sweep (arL D g data s))^[k] (arX D s recon) := by
  have hfold : ∀ l : List (Nat × Nat × Nat), (∀ t ∈ l, t ∈ artOrder D) → ∀ r : Mem ℝ,
      arX D s (l.foldl (kacz D g data) r) = Kz.sweep (l.map fun t => if t.2.2 = s then
        (fun n : Fin D.N => lenIn (g 0 t.1 t.2.1) n, data (D.data s t.1 t.2.1)) else (0, 0)) (arX D s r) := by
    intro l
    induction l with
    | nil => intro _ r; rfl
    | cons t l ih =>
      intro hl r
      rw [List.foldl_cons, ih fun t' h => hl t' (List.mem_cons_of_mem _ h), kacz_proj hg hone (hl t List.mem_cons_self)]
      rfl
  induction k with
  | zero => rw [art_zero]; rfl
  | succ k ih =>
    rw [Function.iterate_succ_apply', ← ih]
    by_cases hne : D.dy = 0 ∨ D.dt = 0 ∨ D.dx = 0
    · have h0 : artOrder D = [] := by
        rw [List.eq_nil_iff_forall_not_mem]
        intro t ht
        have := mem_artOrder.mp ht
        omega
      unfold arL art
      rw [if_pos hne, if_pos hne, h0]
      rfl
    · rw [art_succ hne, hfold _ fun _ h => h]
      rfl

/-- The difference of two images is, on slice `s`, a combination of the rays (specification). -/
def RayCombination (D : Dims) (g : Geom ℝ) (s : Nat) (r z : Mem ℝ) : Prop :=
  ∃ w : Nat → Nat → ℝ, ∀ n < D.N, r (n + s * D.N) - z (n + s * D.N) =
    ∑ p ∈ Finset.range D.dt, ∑ d ∈ Finset.range D.dx, w p d * lenIn (g 0 p d) n

theorem rayCombination_iff {s : Nat} (hs : s < D.dy) (r z : Mem ℝ) :
    RayCombination D g s r z ↔ arX D s r - arX D s z ∈ Kz.rows (arL D g data s) := by
  constructor
  · rintro ⟨w, hw⟩
    have e : arX D s r - arX D s z = ∑ p ∈ Finset.range D.dt, ∑ d ∈ Finset.range D.dx,
        w p d • (fun n : Fin D.N => lenIn (g 0 p d) n) := by
      funext n
      rw [Pi.sub_apply]
      refine (hw n n.2).trans ?_
      rw [Finset.sum_apply]
      refine Finset.sum_congr rfl fun p _ => ?_
      rw [Finset.sum_apply]
      rfl
    rw [e]
    refine Submodule.sum_mem _ fun p hp => Submodule.sum_mem _ fun d hd => Submodule.smul_mem _ _ ?_
    refine Submodule.subset_span ⟨data (D.data s p d), ?_⟩
    refine List.mem_map.mpr ⟨(p, d, s), mem_artOrder.mpr ⟨Finset.mem_range.mp hp, Finset.mem_range.mp hd, hs⟩, ?_⟩
    rw [if_pos rfl]
  · intro h
    have : ∀ v ∈ Kz.rows (arL D g data s), ∃ w : Nat → Nat → ℝ, ∀ n : Fin D.N, v n =
        ∑ p ∈ Finset.range D.dt, ∑ d ∈ Finset.range D.dx, w p d * lenIn (g 0 p d) n := by
      intro v hv
      unfold Kz.rows at hv
      induction hv using Submodule.span_induction with
      | mem a ha =>
        obtain ⟨b, hb⟩ := ha
        obtain ⟨t, ht, e⟩ := List.mem_map.mp hb
        obtain ⟨ht1, ht2, ht3⟩ := mem_artOrder.mp ht
        split at e
        · refine ⟨fun p d => if p = t.1 ∧ d = t.2.1 then 1 else 0, fun n => ?_⟩
          rw [← (Prod.mk.inj e).1, Finset.sum_eq_single t.1, Finset.sum_eq_single t.2.1]
          · simp
          · intro d _ hd; simp [hd]
          · intro h; simp at h; omega
          · intro p _ hp; simp [hp]
          · intro h; simp at h; omega
        · refine ⟨fun _ _ => 0, fun n => ?_⟩
          rw [← (Prod.mk.inj e).1]
          simp
      | zero => exact ⟨fun _ _ => 0, fun n => by simp⟩
      | add a b _ _ h1 h2 =>
        obtain ⟨w1, h1⟩ := h1
        obtain ⟨w2, h2⟩ := h2
        refine ⟨fun p d => w1 p d + w2 p d, fun n => ?_⟩
        simp only [Pi.add_apply, h1, h2, add_mul, Finset.sum_add_distrib]
      | smul c a _ h =>
        obtain ⟨w, h⟩ := h
        refine ⟨fun p d => c * w p d, fun n => ?_⟩
        simp only [Pi.smul_apply, h, smul_eq_mul, Finset.mul_sum, mul_assoc]
    obtain ⟨w, hw⟩ := this _ h
    exact ⟨w, fun n hn => hw ⟨n, hn⟩⟩

theorem arX_dist (s : Nat) (r z : Mem ℝ) :
    (arX D s r - arX D s z) ⬝ᵥ (arX D s r - arX D s z) = dist2 D s r z := by
  unfold dist2
  rw [← Fin.sum_univ_eq_sum_range (fun n => (r (n + s * D.N) - z (n + s * D.N)) ^ 2)]
  exact Finset.sum_congr rfl fun n _ => (pow_two _).symm

/-- **C155**: for all data, also such that contradict each other, the results of `art` converge
geometrically.  The limit is the only image that an iteration does not change and that differs from
the initial image by a combination of the rays. -/
theorem art_converges_always (hg : GeomOk D g) (hone : GeomOnce D g) (data recon : Mem ℝ) :
    ∃ u : Mem ℝ, SameImage D (art D g data 1 u) u ∧
      ∀ s < D.dy, RayCombination D g s u recon ∧
        (∀ u', (∀ n < D.N, art D g data 1 u' (n + s * D.N) = u' (n + s * D.N)) → RayCombination D g s u' recon →
          ∀ n < D.N, u' (n + s * D.N) = u (n + s * D.N)) ∧
        (∃ κ, 0 ≤ κ ∧ κ < 1 ∧ ∀ k, dist2 D s (art D g data k recon) u ≤ κ ^ k * dist2 D s recon u) ∧
        ∀ n < D.N, Tendsto (fun k => art D g data k recon (n + s * D.N)) atTop (𝓝 (u (n + s * D.N))) := by
  choose z h1 h2 h3 h4 using fun s => Kz.converges (arL D g data s) (arX D s recon)
  obtain ⟨u, hu⟩ : ∃ u : Mem ℝ, ∀ s, arX D s u = z s := by
    refine ⟨fun i => if h : i % D.N < D.N then z (i / D.N) ⟨i % D.N, h⟩ else 0, fun s => ?_⟩
    funext n
    have e1 : ((n : Nat) + s * D.N) / D.N = s := by
      rw [Nat.mul_comm, Nat.add_mul_div_left _ _ (by have := n.2; omega), Nat.div_eq_of_lt n.2, Nat.zero_add]
    have e2 : ((n : Nat) + s * D.N) % D.N = n := by
      rw [Nat.add_mul_mod_self_right, Nat.mod_eq_of_lt n.2]
    unfold arX
    simp only [e1, e2, dif_pos n.2]
  have hfix : ∀ s, arX D s (art D g data 1 u) = arX D s u := by
    intro s
    rw [art_sweep data hg hone, hu]
    exact h1 s
  refine ⟨u, fun s _ n hn => congrFun (hfix s) ⟨n, hn⟩, fun s hs => ⟨?_, ?_, ?_, ?_⟩⟩
  · rw [rayCombination_iff (data := data) hs, hu]
    exact h2 s
  · intro u' hf hc n hn
    have e : arX D s u' = z s := by
      refine h3 s _ ?_ ((rayCombination_iff (data := data) hs _ _).mp hc)
      have := art_sweep data hg hone s u' 1
      rw [show (Kz.sweep (arL D g data s))^[1] (arX D s u') = Kz.sweep (arL D g data s) (arX D s u') from rfl] at this
      rw [← this]
      funext n
      exact hf n n.2
    have := congrFun (e.trans (hu s).symm) ⟨n, hn⟩
    exact this
  · obtain ⟨κ, k0, k1, hκ⟩ := h4 s
    refine ⟨κ, k0, k1, fun k => ?_⟩
    have := hκ k
    rwa [← hu s, ← art_sweep data hg hone, arX_dist, arX_dist] at this
  · intro n hn
    obtain ⟨κ, k0, k1, hκ⟩ := h4 s
    have h0 : Tendsto (fun k => dist2 D s (art D g data k recon) u) atTop (𝓝 0) := by
      refine squeeze_zero (fun k => dist2_nonneg _ _ _ _) (fun k => ?_)
        (g := fun k => κ ^ k * dist2 D s recon u) ?_
      · have := hκ k
        rwa [← hu s, ← art_sweep data hg hone, arX_dist, arX_dist] at this
      · simpa using (tendsto_pow_atTop_nhds_zero_of_lt_one k0 k1).mul_const (dist2 D s recon u)
    have h1 : Tendsto (fun k => art D g data k recon (n + s * D.N) - u (n + s * D.N)) atTop (𝓝 0) :=
      squeeze_zero_norm (a := fun k => √(dist2 D s (art D g data k recon) u))
        (fun k => by rw [Real.norm_eq_abs]; exact abs_pixel_le s _ _ hn)
        (by simpa [Function.comp_def] using (Real.continuous_sqrt.tendsto 0).comp h0)
    simpa using h1.add_const (u (n + s * D.N))

end Real

/-! ## The limit is not a least squares image -/

/-- One pixel seen at two angles. -/
def kzG : Geom ℝ := fun _ _ _ => [(0, 1)]

theorem kzG_ok : GeomOk ⟨1, 2, 1, 1⟩ kzG := by
  intro s _ p _ d _ e he
  simp only [kzG, List.mem_singleton] at he
  subst he
  exact ⟨by norm_num, zero_le_one⟩

theorem kzG_once : GeomOnce ⟨1, 2, 1, 1⟩ kzG := by
  intro s _ p _ d _
  simp [kzG, Once]

/-- The hypotheses hold, with data that contradict each other. -/
example : ∃ u : Mem ℝ, ∀ n < 1,
    Tendsto (fun k => art ⟨1, 2, 1, 1⟩ kzG (fun i => (i : ℝ)) k (fun _ => 7) (n + 0 * 1)) atTop (𝓝 (u (n + 0 * 1))) := by
  obtain ⟨u, -, h⟩ := art_converges_always kzG_ok kzG_once (fun i => (i : ℝ)) (fun _ => 7)
  exact ⟨u, (h 0 (by norm_num)).2.2.2⟩

/-- **C155**: the limit need not minimise the residual.  On one pixel seen at two angles with the
values `a ≠ b` every positive number of iterations gives `b`, although `(a + b) / 2` has the smaller
sum of squared residuals. -/
theorem art_not_least_squares {a b : ℝ} (hab : a ≠ b) (recon : Mem ℝ) (k : Nat) :
    art ⟨1, 2, 1, 1⟩ kzG (fun i => if i = 0 then a else b) (k + 1) recon 0 = b ∧
    ((a + b) / 2 - a) ^ 2 + ((a + b) / 2 - b) ^ 2 < (b - a) ^ 2 + (b - b) ^ 2 := by
  constructor
  · rw [art_succ (by simp)]
    generalize art ⟨1, 2, 1, 1⟩ kzG (fun i => if i = 0 then a else b) k recon = r
    have e : artOrder ⟨1, 2, 1, 1⟩ = [(0, 0, 0), (1, 0, 0)] := by decide
    rw [e]
    simp [kacz, kzG, sumDist2, spread, lineSum, Dims.data, addAt]
  · have := sq_pos_of_ne_zero (sub_ne_zero.mpr hab)
    nlinarith

end Tomopy.Iter
