import Verif.Sim.VecModel
import Verif.Sim.Props
import Verif.Ray.Opposite
import Verif.Iter.Project

/-!
# Projections of opposite views and of vector fields (C110 - C115)
-/

set_option linter.unusedSectionVars false

namespace Tomopy.Sim

open Tomopy.Iter Tomopy.Recon

section Generic

variable {K : Type*} [Field K] [LinearOrder K] [IsStrictOrderedRing K]

theorem vecProjectC_apply (D : Dims) (ox oz axis : Nat) (g : Nat → Nat → Segs K)
    (v : Nat → Nat → K × K) (R : Nat → Mem K) (data : Mem K) (x : Nat) (ha : axis ≤ 2) :
    vecProjectC D ox oz axis g v R data x = data x + ∑ p ∈ Finset.range D.dt,
      ∑ d ∈ Finset.range D.dx, ∑ s ∈ Finset.range D.dy,
        if D.data s p d = x then vecLine ox oz axis s (g p d) (v p d) R else 0 := by
  unfold vecProjectC
  split
  · rename_i h
    rcases h with h | h | h <;> simp [h]
  · rw [foldl_additive _ (fun p x => ∑ d ∈ Finset.range D.dx, ∑ s ∈ Finset.range D.dy,
        if D.data s p d = x then vecLine ox oz axis s (g p d) (v p d) R else 0)]
    · rw [sum_range_list]
    · intro m p x _
      rw [foldl_additive _ (fun d x => ∑ s ∈ Finset.range D.dy,
        if D.data s p d = x then vecLine ox oz axis s (g p d) (v p d) R else 0)]
      · rw [sum_range_list]
      · intro m d x _
        rw [foldl_additive _ (fun s x =>
          if D.data s p d = x then vecLine ox oz axis s (g p d) (v p d) R else 0)]
        · rw [sum_range_list]
        · intro m s x _
          exact vecSimdata_apply D ox oz axis s p d (g p d) (v p d) R m x ha

/-- Each element of the data is increased by the line integral of the field along its own ray. -/
theorem vecProjectC_value (D : Dims) (ox oz axis : Nat) (g : Nat → Nat → Segs K)
    (v : Nat → Nat → K × K) (R : Nat → Mem K) (data : Mem K) (ha : axis ≤ 2) {s p d : Nat}
    (hs : s < D.dy) (hp : p < D.dt) (hd : d < D.dx) :
    vecProjectC D ox oz axis g v R data (D.data s p d) =
      data (D.data s p d) + vecLine ox oz axis s (g p d) (v p d) R := by
  rw [vecProjectC_apply D ox oz axis g v R data _ ha,
    sum_data_single D (fun s p d => vecLine ox oz axis s (g p d) (v p d) R) hs hp hd]

/-- Other axes: nothing is written. -/
theorem vecProjectC_axis (D : Dims) (ox oz axis : Nat) (g : Nat → Nat → Segs K)
    (v : Nat → Nat → K × K) (R : Nat → Mem K) (data : Mem K) (ha : 2 < axis) :
    vecProjectC D ox oz axis g v R data = data := by
  have h : ∀ s p d (m : Mem K), vecSimdata D ox oz axis s p d (g p d) (v p d) R m = m := by
    intro s p d m
    unfold vecSimdata
    rw [if_neg (by omega)]
  have hf : ∀ (l : List Nat) (m : Mem K), l.foldl (fun m _ => m) m = m := by
    intro l; induction l with
    | nil => intro m; rfl
    | cons a l ih => intro m; exact ih m
  unfold vecProjectC
  split
  · rfl
  · simp only [h, hf]

end Generic

/-! ## Specification -/

/-- The components in the plane at pixel `(m, k)` of slice `s`: `(x, y)` at the voxel `(s, m, k)`,
`(y, z)` at `(k, m, s)`, `(x, z)` at `(k, s, m)` for the axes 0, 1, 2. -/
def planeField (F : Nat → Nat → Nat → Nat → ℝ) (axis s m k : Nat) : ℝ × ℝ :=
  match axis with
  | 0 => (F 0 s m k, F 1 s m k)
  | 1 => (F 1 k m s, F 2 k m s)
  | _ => (F 0 k s m, F 2 k s m)

/-- The integral of the vector field `F` (components by voxel) along the ray of angle `θ` with the
given segments (pixel, length): the path has direction `(-cos θ, -sin θ)`. -/
noncomputable def fieldIntegral (F : Nat → Nat → Nat → Nat → ℝ) (oz axis s : Nat) (θ : ℝ)
    (ray : Segs ℝ) : ℝ :=
  (ray.map fun e =>
    -((planeField F axis s (e.1 / oz) (e.1 % oz)).1 * Real.cos θ +
      (planeField F axis s (e.1 / oz) (e.1 % oz)).2 * Real.sin θ) * e.2).sum

/-- The memory holds the volume `F`. -/
def Holds (ox oz : Nat) (F : Nat → Nat → Nat → Nat → ℝ) (R : Nat → Mem ℝ) : Prop :=
  ∀ c z x y, x < ox → y < oz → R c (voxel ox oz z x y) = F c z x y

/-! ## C110, C111: opposite views of `project` -/

/-- The geometry of the tracer for the opposite view. -/
theorem tracerGeom_opposite (ox oz dx : Nat) (c c' : ℝ) (theta theta' : Nat → ℝ) {s p p' d : Nat}
    (hd : d < dx) (hθ : theta' p' = theta p + Real.pi) (hc : c' = dx - c)
    (hax : Ray.ClearOfAxes (theta p))
    (h1 : 1 / 100 ≤ Int.fract (((dx : ℝ) - 1) * (1 / 2) - c))
    (h2 : Int.fract (((dx : ℝ) - 1) * (1 / 2) - c) ≤ 99 / 100) :
    (tracerGeom ox oz dx (fun _ => c) theta s p d).Perm
      (tracerGeom ox oz dx (fun _ => c') theta' s p' (dx - 1 - d)) := by
  obtain ⟨l, l', e1, e2, hp⟩ := Ray.opposite_segments ox oz dx c (theta p) d hd hax h1 h2
  unfold tracerGeom
  rw [hθ, hc, e1, e2]
  exact hp.map _

theorem lineSum_perm {N s : Nat} {r r' : Segs ℝ} (h : r.Perm r') (m : Mem ℝ) :
    lineSum N s r m = lineSum N s r' m := (h.map _).sum_eq

/-- **C110** `project`: a view half a turn later is the mirror image, for the default centre. -/
theorem project_opposite {cpu : Nat} {debug : Bool} {oy ox oz : Nat} {obj : Nat → Mem ℝ}
    {theta theta' : List ℝ} {emission : Bool} {pad : Pad}
    {so sc so' sc' : Bool} {n k n' k' : Option Nat} {r r' : Arr3 ℝ}
    (h : Project cpu debug oy ox oz obj theta none emission pad true so sc n k r)
    (h' : Project cpu debug oy ox oz obj theta' none emission pad true so' sc' n' k' r')
    {p p' : Nat} (hp : p < theta.length) (hp' : p' < theta'.length)
    (hθ : theta'.getD p' 0 = theta.getD p 0 + Real.pi) (hax : Ray.ClearOfAxes (theta.getD p 0)) :
    r'.d2 = r.d2 ∧ ∀ s < oy, ∀ d < r.d2, r'.get s p' (r.d2 - 1 - d) = r.get s p d := by
  obtain ⟨dx, w, e, v⟩ := project_spec h (Or.inl rfl)
  obtain ⟨dx', w', e', v'⟩ := project_spec h' (Or.inl rfl)
  rw [w] at w'
  cases w'
  simp only [if_true, Prod.mk.injEq] at e e' v v'
  obtain ⟨_, _, e⟩ := e
  obtain ⟨_, _, e'⟩ := e'
  refine ⟨by rw [e, e'], ?_⟩
  rw [e]
  intro s hs d hd
  rw [v s hs p hp d hd, v' s hs p' hp' (dx - 1 - d) (by omega)]
  have hcen : (getCenter oy dx (none : Option (List ℝ))).getD 0 0 = (dx : ℝ) / 2 :=
    getCenter_default _ _ _ (by omega)
  rw [hcen]
  obtain ⟨f1, f2⟩ := Ray.default_center_clear dx
  have key : rayIntegral ox oz dx theta' ((dx : ℝ) / 2) p' (dx - 1 - d) (obj s) =
      rayIntegral ox oz dx theta ((dx : ℝ) / 2) p d (obj s) := by
    unfold rayIntegral
    refine (lineSum_perm (tracerGeom_opposite ox oz dx _ _ _ _ hd hθ f2.symm hax ?_ ?_) _).symm
    · rw [f1]; norm_num
    · rw [f1]; norm_num
  rw [key]

/-- **C110** with one rotation centre for all slices, mirrored for the second scan. -/
theorem project_opposite_center {cpu : Nat} {debug : Bool} {oy ox oz : Nat} {obj : Nat → Mem ℝ}
    {theta theta' : List ℝ} {c : ℝ} {emission : Bool} {pad : Pad}
    {so sc so' sc' : Bool} {n k n' k' : Option Nat} {r r' : Arr3 ℝ}
    (h : Project cpu debug oy ox oz obj theta (some [c]) emission pad true so sc n k r)
    (h' : Project cpu debug oy ox oz obj theta' (some [r.d2 - c]) emission pad true so' sc' n' k' r')
    {p p' : Nat} (hp : p < theta.length) (hp' : p' < theta'.length)
    (hθ : theta'.getD p' 0 = theta.getD p 0 + Real.pi) (hax : Ray.ClearOfAxes (theta.getD p 0))
    (h1 : 1 / 100 ≤ Int.fract (((r.d2 : ℝ) - 1) * (1 / 2) - c))
    (h2 : Int.fract (((r.d2 : ℝ) - 1) * (1 / 2) - c) ≤ 99 / 100) :
    r'.d2 = r.d2 ∧ ∀ s < oy, ∀ d < r.d2, r'.get s p' (r.d2 - 1 - d) = r.get s p d := by
  obtain ⟨dx, w, e, v⟩ := project_spec h (Or.inr ⟨c, rfl⟩)
  obtain ⟨dx', w', e', v'⟩ := project_spec h' (Or.inr ⟨_, rfl⟩)
  rw [w] at w'
  cases w'
  simp only [if_true, Prod.mk.injEq] at e e' v v'
  obtain ⟨_, _, e⟩ := e
  obtain ⟨_, _, e'⟩ := e'
  refine ⟨by rw [e, e'], ?_⟩
  rw [e] at v' h1 h2 ⊢
  intro s hs d hd
  rw [v s hs p hp d hd, v' s hs p' hp' (dx - 1 - d) (by omega)]
  have hcen : ∀ c : ℝ, (getCenter oy dx (some [c])).getD 0 0 = c := fun c =>
    getCenter_scalar _ _ _ _ (by omega)
  rw [hcen, hcen]
  have key : rayIntegral ox oz dx theta' ((dx : ℝ) - c) p' (dx - 1 - d) (obj s) =
      rayIntegral ox oz dx theta c p d (obj s) := by
    unfold rayIntegral
    exact (lineSum_perm (tracerGeom_opposite ox oz dx _ _ _ _ hd hθ rfl hax h1 h2) _).symm
  rw [key]

/-- A pair of views that meets the hypotheses. -/
example : Ray.ClearOfAxes (([Real.pi / 4] : List ℝ).getD 0 0) ∧
    ([Real.pi / 4 + Real.pi] : List ℝ).getD 0 0 = ([Real.pi / 4] : List ℝ).getD 0 0 + Real.pi := by
  refine ⟨?_, rfl⟩
  exact Ray.clear_quarter

/-- A horizontal ray through a 3x3 grid charges pixels of one row only, with positive total. -/
theorem horizontal_row (dx : Nat) (c θ : ℝ) (d : Nat) (σ y : ℝ) (hax : Ray.ClearOfAxes θ)
    (hsin : Real.sin θ = 0) (hcos : Real.cos θ = σ) (hσ : σ * σ = 1)
    (hy : Ray.rayY dx d (Ray.mov dx c) = y * σ) (h1 : -149 / 100 ≤ y) (h2 : y ≤ 149 / 100) :
    ∃ segs, Ray.rayTrace (Ray.capsRecon 3 3) 3 3 dx c θ d = some segs ∧
      (∀ e ∈ segs, ∃ ix iy : Nat, e.1 = ((iy + ix * 3 : Nat) : Int) ∧ iy < 3 ∧
        Ray.grid 3 iy ≤ y ∧ y < Ray.grid 3 (iy + 1)) ∧ 0 < (segs.map Prod.snd).sum := by
  obtain ⟨segs, pts, e1, hm, ho, hs, hsum, _⟩ := Ray.rayTrace_spec_partial 3 3 dx c θ d hax
  have hσ0 : σ ≠ 0 := by rintro rfl; norm_num at hσ
  have hm := hm (by norm_num)
  rw [hsin, hcos, hy] at hm
  rw [hsin, hcos] at ho
  have hP : ∀ P ∈ pts, P.2 = y := by
    intro P hP
    obtain ⟨hon, _⟩ := (hm P).mp hP
    unfold Ray.OnRay at hon
    have : (P.2 - y) * σ = 0 := by linear_combination hon + y * σ * hσ
    rcases mul_eq_zero.mp this with h | h
    · linarith
    · exact absurd h hσ0
  have hin : ∀ n : Nat, n ≤ 3 → ((Ray.grid 3 n : ℝ), y) ∈ pts := by
    intro n hn
    rw [hm]
    refine ⟨?_, Or.inr ⟨hσ0, ⟨?_, ?_⟩, n, hn, rfl⟩⟩
    · unfold Ray.OnRay; simp only; linear_combination -y * σ * hσ
    · norm_num; linarith
    · norm_num; linarith
  refine ⟨segs, e1, ?_, ?_⟩
  · intro e he
    obtain ⟨P, Q, ix, iy, hPQ, _, hiy, hmid, rfl⟩ := hs e he
    have hP1 := hP P (hPQ.subset (by simp))
    have hQ1 := hP Q (hPQ.subset (by simp))
    obtain ⟨_, _, m1, m2⟩ := hmid
    rw [hP1, hQ1] at m1 m2
    refine ⟨ix, iy, rfl, hiy, ?_, ?_⟩
    · linarith
    · linarith
  · have h0 := hin 0 (by norm_num)
    have h3 := hin 3 (by norm_num)
    cases hpts : pts with
    | nil => rw [hpts] at h0; simp at h0
    | cons F l =>
      have hne : pts ≠ [] := by rw [hpts]; simp
      have hhead : pts.head? = some F := by rw [hpts]; rfl
      rw [hsum F (pts.getLast hne) hhead (List.getLast?_eq_getLast_of_ne_nil hne)]
      by_contra hcon
      have hz := (Ray.hypot_isHyp ((pts.getLast hne).1 - F.1) ((pts.getLast hne).2 - F.2))
      have hz0 : Ray.hypot ((pts.getLast hne).1 - F.1) ((pts.getLast hne).2 - F.2) = 0 :=
        le_antisymm (not_lt.mp hcon) hz.1
      rw [hz0, hP F (by rw [hpts]; simp), hP _ (List.getLast_mem hne)] at hz
      have hx : (pts.getLast hne).1 = F.1 := by
        have := hz.2
        nlinarith [this]
      -- all points have the abscissa of the first one
      have hall : ∀ P ∈ pts, P.1 = F.1 := by
        have hlast : ∀ P ∈ pts, ∀ (R : ℝ × ℝ → ℝ × ℝ → Prop), (∀ P, R P P) → pts.Pairwise R →
            R F P ∧ R P (pts.getLast hne) := by
          intro P hPm R hrefl hpw
          constructor
          · rw [hpts] at hPm hpw
            rcases List.mem_cons.mp hPm with rfl | hPm
            · exact hrefl _
            · exact (List.pairwise_cons.mp hpw).1 P hPm
          · have hdecomp := List.dropLast_append_getLast hne
            rw [← hdecomp] at hPm
            rcases List.mem_append.mp hPm with hPm | hPm
            · have hpw' := hpw
              rw [← hdecomp] at hpw'
              exact (List.pairwise_append.mp hpw').2.2 P hPm _ (by simp)
            · rw [List.mem_singleton.mp hPm]; exact hrefl _
        intro P hPm
        rcases ho with ho | ho
        · obtain ⟨a1, a2⟩ := hlast P hPm _ (fun P => by simp) ho
          rw [hx] at a2
          have : (P.1 - F.1) * σ = 0 := by nlinarith
          rcases mul_eq_zero.mp this with h | h
          · linarith
          · exact absurd h hσ0
        · obtain ⟨a1, a2⟩ := hlast P hPm _ (fun P => by simp) ho
          rw [hx] at a2
          have : (P.1 - F.1) * σ = 0 := by nlinarith
          rcases mul_eq_zero.mp this with h | h
          · linarith
          · exact absurd h hσ0
      have q0 := hall _ h0
      have q3 := hall _ h3
      simp only [Ray.grid] at q0 q3
      norm_num at q0 q3
      linarith

/-- **C111** (refutation): for a rotation centre a whole number of pixels from `(dx - 1) / 2` the
opposite view is not the mirror image: here an object of one row is missed by one of the views. -/
theorem project_opposite_fails :
    rayIntegral 3 3 3 [0] 1 0 1 (fun n => if n % 3 = 1 then 1 else 0) = 0 ∧
    0 < rayIntegral 3 3 3 [Real.pi] (3 - 1) 0 (3 - 1 - 1) (fun n => if n % 3 = 1 then 1 else 0) := by
  have hm1 : Ray.mov 3 (1 : ℝ) = 51 / 100 := by
    unfold Ray.mov; norm_num
  have hm2 : Ray.mov 3 (3 - 1 : ℝ) = -49 / 100 := by
    have hf : ⌊(-1 : ℝ)⌋ = -1 := by
      have : (-1 : ℝ) = ((-1 : Int) : ℝ) := by norm_num
      rw [this, Int.floor_intCast]
    unfold Ray.mov
    have : ((3 : Nat) - 1 : ℝ) * (1 / 2) - (3 - 1) = -1 := by norm_num
    rw [this, hf]; norm_num
  constructor
  · obtain ⟨segs, e1, hs, _⟩ := horizontal_row 3 1 0 1 1 (51 / 100)
      (fun k => by
        have hpi := Real.pi_gt_three
        by_cases hk : k = 0
        · left; rw [hk]; norm_num
        · right
          have h1 : (1 : ℝ) ≤ |(k : ℝ)| := by
            have : (1 : Int) ≤ |k| := Int.one_le_abs hk
            exact_mod_cast this
          rw [zero_sub, abs_neg, abs_mul, abs_of_pos (show 0 < Real.pi / 2 by linarith)]
          have h2 : 1 / Ray.ipiC ≤ 1 / 2 := by
            unfold Ray.ipiC; norm_num
          nlinarith)
      Real.sin_zero Real.cos_zero (by norm_num)
      (by rw [hm1]; unfold Ray.rayY; norm_num) (by norm_num) (by norm_num)
    unfold rayIntegral lineSum tracerGeom
    simp only [List.getD_cons_zero]
    rw [e1]
    apply List.sum_eq_zero
    intro x hx
    simp only [Option.getD_some, List.map_map, List.mem_map, Function.comp] at hx
    obtain ⟨e, he, rfl⟩ := hx
    obtain ⟨ix, iy, h1, h2, h3, h4⟩ := hs e he
    have hiy : iy ≠ 1 := by
      rintro rfl
      unfold Ray.grid at h4; norm_num at h4
    rw [if_neg (by rw [h1]; omega), zero_mul]
  · obtain ⟨segs, e1, hs, hpos⟩ := horizontal_row 3 (3 - 1) Real.pi 1 (-1) (49 / 100)
      (fun k => by
        have hpi := Real.pi_gt_three
        by_cases hk : k = 2
        · left; rw [hk]; push_cast; ring
        · right
          have h1 : (1 : ℝ) ≤ |(2 - k : ℝ)| := by
            have : (1 : Int) ≤ |2 - k| := Int.one_le_abs (by omega)
            have h := (Int.cast_le (R := ℝ)).mpr this
            push_cast at h
            exact h
          have e : Real.pi - k * (Real.pi / 2) = (2 - k) * (Real.pi / 2) := by ring
          rw [e, abs_mul, abs_of_pos (show 0 < Real.pi / 2 by linarith)]
          have h2 : 1 / Ray.ipiC ≤ 1 / 2 := by
            unfold Ray.ipiC; norm_num
          nlinarith)
      Real.sin_pi Real.cos_pi (by norm_num)
      (by rw [hm2]; unfold Ray.rayY; norm_num) (by norm_num) (by norm_num)
    unfold rayIntegral lineSum tracerGeom
    simp only [List.getD_cons_zero]
    rw [show 3 - 1 - 1 = 1 from rfl, e1]
    have : (List.map (fun e : Nat × ℝ => (if (e.1 + 0 * (3 * 3)) % 3 = 1 then (1 : ℝ) else 0) * e.2)
        (List.map (fun e : Int × ℝ => (e.1.toNat, e.2)) segs)) = segs.map Prod.snd := by
      rw [List.map_map]
      apply List.map_congr_left
      intro e he
      obtain ⟨ix, iy, h1, h2, h3, h4⟩ := hs e he
      have hiy : iy = 1 := by
        rcases (show iy = 0 ∨ iy = 1 ∨ iy = 2 by omega) with rfl | rfl | rfl
        · unfold Ray.grid at h4; norm_num at h4
        · rfl
        · unfold Ray.grid at h3; norm_num at h3
      subst hiy
      simp only [Function.comp]
      rw [if_pos (by rw [h1]; omega), one_mul]
    simp only [Option.getD_some]
    rw [this]
    exact hpos

/-! ## C112: values of `project3` -/

theorem vecLine_field {ox oz axis s : Nat} {F : Nat → Nat → Nat → Nat → ℝ} {R : Nat → Mem ℝ}
    (hR : Holds ox oz F R) (ha : axis ≤ 2) (h3 : axis = 0 ∨ (s < ox ∧ s < oz ∧ ox = oz)) {ray : Segs ℝ}
    (hray : SegsOk (ox * oz) ray) (θ : ℝ) :
    vecLine ox oz axis s ray (-Real.cos θ, -Real.sin θ) R = fieldIntegral F oz axis s θ ray := by
  unfold vecLine fieldIntegral
  congr 1
  apply List.map_congr_left
  intro e he
  obtain ⟨hlt, _⟩ := hray e he
  have hoz : 0 < oz := by
    rcases Nat.eq_zero_or_pos oz with h | h
    · rw [h, Nat.mul_zero] at hlt; omega
    · exact h
  have hm : e.1 / oz < ox := Nat.div_lt_of_lt_mul (by rwa [Nat.mul_comm])
  have hk : e.1 % oz < oz := Nat.mod_lt _ hoz
  obtain ⟨v0, v1, v2⟩ := vecAddr_voxel (ngx := ox) (ngy := oz) (s := s) (m := e.1 / oz) hk
  rw [Nat.mod_add_div'] at v0 v1 v2
  match axis, ha, h3 with
  | 0, _, _ =>
    simp only [vecComp, if_true, v0]
    rw [hR 0 s _ _ hm hk, hR 1 s _ _ hm hk]
    simp only [planeField]
    ring
  | 1, _, h3 =>
    have h3 := h3.resolve_left (by decide)
    simp only [vecComp, v1]
    rw [if_neg (by decide), if_pos trivial]
    simp only
    rw [hR 1 _ _ _ hm h3.2.1, hR 2 _ _ _ hm h3.2.1]
    simp only [planeField]
    ring
  | 2, _, h3 =>
    have h3 := h3.resolve_left (by decide)
    simp only [vecComp, v2]
    rw [if_neg (by decide), if_neg (by decide)]
    simp only
    rw [hR 0 _ _ _ h3.1 (h3.2.2 ▸ hm), hR 2 _ _ _ h3.1 (h3.2.2 ▸ hm)]
    simp only [planeField]
    ring

/-- **C112** What `project3` returns for a cube (or, along axis 0, any grid), in all four
combinations of emission/transmission and data order. -/
theorem project3_spec {oy ox oz : Nat} {obj : Nat → Mem ℝ} {F : Nat → Nat → Nat → Nat → ℝ}
    {theta : List ℝ} {center : Option (List ℝ)} {emission : Bool} {pad : Pad} {sino : Bool} {axis : Nat}
    {r : Arr3 ℝ} (hF : Holds ox oz F obj) (ha : axis ≤ 2) (hcube : axis = 0 ∨ (oy = ox ∧ ox = oz))
    (hpos : 0 < ox + oz)
    (h : project3 oy ox oz obj theta center emission pad sino axis = .ok r) :
    ∃ dx, projectWidth ox oz pad = .ok dx ∧
      (r.d0, r.d1, r.d2) = (if sino then (oy, theta.length, dx) else (theta.length, oy, dx)) ∧
      ∀ s < oy, ∀ p < theta.length, ∀ d < dx,
        (if sino then r.get s p d else r.get p s d) =
          (if emission then id else fun x => Real.exp (-x)) (fieldIntegral F oz axis s (theta.getD p 0)
            (tracerGeom ox oz dx (fun _ => (getCenter oy dx center).getD 0 0)
              (fun p => theta.getD p 0) 0 p d)) := by
  unfold project3 at h
  cases hw : projectWidth ox oz pad with
  | error e => rw [hw] at h; cases h
  | ok dx =>
    rw [hw] at h
    simp only [bind, Except.bind, pure, Except.pure, Except.ok.injEq] at h
    subst h
    refine ⟨dx, rfl, ?_, ?_⟩
    · cases sino <;> cases emission <;> simp [projectPost, swap01]
    · intro s hs p hp d hd
      have hv := vecProjectC_value ⟨oy, theta.length, dx, ox * oz⟩ ox oz axis
        (tracerGeom ox oz dx (fun _ => (getCenter oy dx center).getD 0 0) (fun p => theta.getD p 0) 0)
        (vecDirs ox oz dx ((getCenter oy dx center).getD 0 0) theta) obj zeros ha hs hp hd
      have hdir : vecDirs ox oz dx ((getCenter oy dx center).getD 0 0) theta p d =
          (-Real.cos (theta.getD p 0), -Real.sin (theta.getD p 0)) := vecDir_unit hpos _ _
      rw [hdir, vecLine_field hF ha
        (hcube.imp id fun hc => ⟨by omega, by omega, hc.2⟩)
        (tracerGeom_ok ox oz dx _ _ 0 p d)] at hv
      rw [show (zeros : Mem ℝ) _ = 0 from rfl, zero_add] at hv
      cases sino <;> cases emission <;> simp only [projectPost, swap01, if_true, Bool.false_eq_true, if_false, hv, id]

/-- `project3` returns something exactly when `pad` is a boolean. -/
theorem project3_total (oy ox oz : Nat) (obj : Nat → Mem ℝ) (theta : List ℝ)
    (center : Option (List ℝ)) (emission : Bool) (pad : Pad) (sino : Bool) (axis : Nat) :
    (∃ r, project3 oy ox oz obj theta center emission pad sino axis = .ok r) ↔ pad ≠ .other := by
  cases pad with
  | yes => simp [project3, projectWidth, bind, Except.bind, pure, Except.pure]
  | no => simp [project3, projectWidth, bind, Except.bind, pure, Except.pure]
  | other => simp [project3, projectWidth, bind, Except.bind]

/-- Every array holds some field, so the hypothesis of `project3_spec` can always be met. -/
theorem holds_flat (ox oz : Nat) (R : Nat → Mem ℝ) :
    Holds ox oz (fun c z x y => R c (voxel ox oz z x y)) R := fun _ _ _ _ _ _ => rfl

/-- **C112**: a field that is constant in the plane gives its component against the direction of
view times the length of the ray in the grid. -/
theorem fieldIntegral_const (F : Nat → Nat → Nat → Nat → ℝ) (oz axis s : Nat) (θ : ℝ) (ray : Segs ℝ)
    (a : Nat → ℝ) (hF : ∀ c z x y, F c z x y = a c) (ha : axis ≤ 2) :
    fieldIntegral F oz axis s θ ray =
      -(a (if axis = 1 then 1 else 0) * Real.cos θ + a (if axis = 0 then 1 else 2) * Real.sin θ) *
        (ray.map Prod.snd).sum := by
  unfold fieldIntegral
  match axis, ha with
  | 0, _ => simp only [planeField, hF]; rw [List.sum_map_mul_left]; rfl
  | 1, _ => simp only [planeField, hF]; rw [List.sum_map_mul_left]; rfl
  | 2, _ => simp only [planeField, hF]; rw [List.sum_map_mul_left]; rfl

/-- **C112**: the projections are linear in the field. -/
theorem fieldIntegral_linear (F G : Nat → Nat → Nat → Nat → ℝ) (oz axis s : Nat) (θ : ℝ) (ray : Segs ℝ)
    (a b : ℝ) (ha : axis ≤ 2) :
    fieldIntegral (fun c z x y => a * F c z x y + b * G c z x y) oz axis s θ ray =
      a * fieldIntegral F oz axis s θ ray + b * fieldIntegral G oz axis s θ ray := by
  unfold fieldIntegral
  rw [← List.sum_map_mul_left, ← List.sum_map_mul_left, ← List.sum_map_add]
  congr 1
  apply List.map_congr_left
  intro e _
  match axis, ha with
  | 0, _ => simp only [planeField]; ring
  | 1, _ => simp only [planeField]; ring
  | 2, _ => simp only [planeField]; ring

/-- **C113** A view half a turn later is the mirror image with the opposite sign (default centre). -/
theorem project3_opposite {oy ox oz : Nat} {obj : Nat → Mem ℝ}
    {theta theta' : List ℝ} {pad : Pad} {axis : Nat} {r r' : Arr3 ℝ} (ha : axis ≤ 2)
    (hcube : axis = 0 ∨ (oy = ox ∧ ox = oz)) (hpos : 0 < ox + oz)
    (h : project3 oy ox oz obj theta none true pad true axis = .ok r)
    (h' : project3 oy ox oz obj theta' none true pad true axis = .ok r')
    {p p' : Nat} (hp : p < theta.length) (hp' : p' < theta'.length)
    (hθ : theta'.getD p' 0 = theta.getD p 0 + Real.pi) (hax : Ray.ClearOfAxes (theta.getD p 0)) :
    r'.d2 = r.d2 ∧ ∀ s < oy, ∀ d < r.d2, r'.get s p' (r.d2 - 1 - d) = -r.get s p d := by
  obtain ⟨dx, w, e, v⟩ := project3_spec (holds_flat ox oz obj) ha hcube hpos h
  obtain ⟨dx', w', e', v'⟩ := project3_spec (holds_flat ox oz obj) ha hcube hpos h'
  rw [w] at w'
  cases w'
  simp only [if_true, Prod.mk.injEq, id] at e e' v v'
  obtain ⟨_, _, e⟩ := e
  obtain ⟨_, _, e'⟩ := e'
  refine ⟨by rw [e, e'], ?_⟩
  rw [e]
  intro s hs d hd
  rw [v s hs p hp d hd, v' s hs p' hp' (dx - 1 - d) (by omega)]
  have hcen : (getCenter oy dx (none : Option (List ℝ))).getD 0 0 = (dx : ℝ) / 2 :=
    getCenter_default _ _ _ (by omega)
  rw [hcen]
  obtain ⟨f1, f2⟩ := Ray.default_center_clear dx
  have hperm := tracerGeom_opposite ox oz dx ((dx : ℝ) / 2) ((dx : ℝ) / 2) (fun p => theta.getD p 0)
    (fun p => theta'.getD p 0) (s := 0) (p := p) (p' := p') hd hθ f2.symm hax
    (by rw [f1]; norm_num) (by rw [f1]; norm_num)
  rw [hθ]
  unfold fieldIntegral
  rw [(hperm.symm.map _).sum_eq, Real.cos_add_pi, Real.sin_add_pi, neg_eq_neg_one_mul (List.sum _), ← List.sum_map_mul_left]
  congr 1
  apply List.map_congr_left
  intro e _
  ring

/-- **C114** `project2` is `project3` along axis 0, whatever its `axis` argument. -/
theorem project2_axis (oy ox oz : Nat) (objx objy objz : Mem ℝ) (theta : List ℝ)
    (center : Option (List ℝ)) (emission : Bool) (pad : Pad) (sino : Bool) (axis : Nat) :
    project2 oy ox oz objx objy theta center emission pad sino axis =
      project3 oy ox oz (fun c => if c = 0 then objx else if c = 1 then objy else objz) theta center
        emission pad sino 0 := by
  have h : ∀ (D : Dims) (g : Nat → Nat → Segs ℝ) (v : Nat → Nat → ℝ × ℝ) (m : Mem ℝ),
      vecProjectC D ox oz 0 g v (fun c => if c = 0 then objx else if c = 1 then objy else zeros) m =
      vecProjectC D ox oz 0 g v (fun c => if c = 0 then objx else if c = 1 then objy else objz) m := by
    intro D g v m
    funext x
    rw [vecProjectC_apply _ _ _ _ _ _ _ _ _ (by omega), vecProjectC_apply _ _ _ _ _ _ _ _ _ (by omega)]
    rfl
  unfold project2 project3
  simp only [h]

/-- **C114** (refutation of "`project3` projects along the axis it is given, else raises"): any other
number returns zeros (ones for transmission) without an error. -/
theorem project3_other_axis {oy ox oz : Nat} {obj : Nat → Mem ℝ}
    {theta : List ℝ} {center : Option (List ℝ)} {emission : Bool} {pad : Pad} {sino : Bool} {axis : Nat}
    {r : Arr3 ℝ} (ha : 2 < axis)
    (h : project3 oy ox oz obj theta center emission pad sino axis = .ok r) (i j k : Nat) :
    r.get i j k = if emission then 0 else 1 := by
  unfold project3 at h
  cases hw : projectWidth ox oz pad with
  | error e => rw [hw] at h; cases h
  | ok dx =>
    rw [hw] at h
    simp only [bind, Except.bind, pure, Except.pure, Except.ok.injEq] at h
    subst h
    rw [vecProjectC_axis _ _ _ _ _ _ _ _ ha]
    cases sino <;> cases emission <;> simp [projectPost, swap01, zeros]

/-- **C115** (refutation of "each slice is projected with its own centre"): only the first value of
the centre array has an effect. -/
theorem project3_first_center (oy ox oz : Nat) (obj : Nat → Mem ℝ) (theta : List ℝ)
    (c : ℝ) (cs cs' : List ℝ) (emission : Bool) (pad : Pad) (sino : Bool)
    (axis : Nat) (hoy : 0 < oy) :
    project3 oy ox oz obj theta (some (c :: cs)) emission pad sino axis =
      project3 oy ox oz obj theta (some (c :: cs')) emission pad sino axis := by
  have h : ∀ dx : Nat, ∀ l : List ℝ, (getCenter oy dx (some (c :: l))).getD 0 0 = c := by
    intro dx l
    unfold getCenter
    simp only
    split
    · cases oy with
      | zero => omega
      | succ n => rfl
    · rfl
  unfold project3
  simp only [h]

end Tomopy.Sim
