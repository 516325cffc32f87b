import Verif.Iter.Alone
import Verif.Iter.PmlModel
import Verif.Iter.TvModel

/-! # Iterations can be continued (C175)

`a + b` iterations are `a` iterations followed by `b` iterations from their result, for the methods whose only
memory between iterations is the image.  `grad` and `tikh` with the automatic step and `tv` keep more than the
image, and start it afresh in every call. -/

set_option linter.unusedSectionVars false

namespace Tomopy.Iter

open Function (update)

variable {K : Type} [Field K] [LinearOrder K] [IsStrictOrderedRing K]

/-! ## Specification -/

/-- `run k` stands for `k` iterations of a method that starts at a given image. -/
def Continues (run : Nat → Mem K → Option (Mem K)) : Prop :=
  ∀ a b recon, run (a + b) recon = (run a recon).bind (run b)

/-! ## Proofs -/

theorem iterM_add {α : Type*} (f : α → Option α) (a b : Nat) :
    ∀ x, iterM f (a + b) x = (iterM f a x).bind (iterM f b) := by
  induction a with
  | zero => intro x; rw [Nat.zero_add]; rfl
  | succ a ih =>
    intro x
    rw [Nat.add_right_comm]
    show (f x).bind (iterM f (a + b)) = ((f x).bind (iterM f a)).bind (iterM f b)
    rw [Option.bind_assoc]
    exact congrArg (f x).bind (funext ih)

/-- **C175** `art`. -/
theorem art_continues (D : Dims) (g : Geom K) (data : Mem K) :
    Continues fun k recon => some (art D g data k recon) := by
  intro a b recon
  show some _ = some _
  unfold art
  split
  · rfl
  · rw [Nat.add_comm, Function.iterate_add_apply]

/-- The methods of `osRun`. -/
theorem osRun_continues (mt : Method K) (fin : Nat → Acc K → Mem K → Option (Mem K)) (D : Dims) (g : Geom K)
    (data : Mem K) (nb : Nat) (ind : List Nat) : Continues fun k recon => osRun mt fin D g data k nb ind recon := by
  intro a b recon
  simp only [osRun]
  split
  · rfl
  · split
    · rfl
    · cases e : (subsets D.dt nb).mapM (subsetProjs nb ind) with
      | none => rfl
      | some blocks => exact iterM_add _ a b recon

/-- **C175** `osem`. -/
theorem osem_continues (D : Dims) (g : Geom K) (data : Mem K) (nb : Nat) (ind : List Nat) :
    Continues fun k recon => osem D g data k nb ind recon := osRun_continues _ _ D g data nb ind

/-- **C175** `mlem`. -/
theorem mlem_continues (D : Dims) (g : Geom K) (data : Mem K) :
    Continues fun k recon => mlem D g data k recon := osem_continues D g data 1 [0]

/-- **C175** `bart`. -/
theorem bart_continues (D : Dims) (g : Geom K) (data : Mem K) (nb : Nat) (ind : List Nat) :
    Continues fun k recon => bart D g data k nb ind recon := osRun_continues _ _ D g data nb ind

/-- **C175** `sirt`. -/
theorem sirt_continues (D : Dims) (g : Geom K) (data : Mem K) :
    Continues fun k recon => sirt D g data k recon := bart_continues D g data 1 [0]

/-- **C175** `ospml_quad` and `ospml_hybrid`. -/
theorem ospml_continues (gam : ℝ → Option ℝ) (beta : ℝ) (D : Dims) (ngx ngy : Nat) (g : Geom ℝ) (data : Mem ℝ)
    (nb : Nat) (ind : List Nat) :
    Continues fun k recon => ospml gam beta D ngx ngy g data k nb ind recon :=
  osRun_continues _ _ D g data nb ind

/-- **C175** `pml_quad` and `pml_hybrid`. -/
theorem pml_continues (gam : ℝ → Option ℝ) (beta : ℝ) (D : Dims) (ngx ngy : Nat) (g : Geom ℝ) (data : Mem ℝ) :
    Continues fun k recon => pml gam beta D ngx ngy g data k recon := ospml_continues _ _ D ngx ngy g data 1 [0]

/-- With a step that is given, neither the number of the iteration nor the image and gradient before matter. -/
theorem gradIters_fixed (extra : Mem K → Mem K → Mem K) (D : Dims) (ngx ngy : Nat) (g : Geom K) (data : Mem K)
    (r : K) {reg0 : K} (h0 : 0 ≤ reg0) (n : Nat) : ∀ (i i' : Nat) (st st' : GradSt K), st.recon = st'.recon →
      (gradIters extra D ngx ngy g data r reg0 n i st).map GradSt.recon =
        (gradIters extra D ngx ngy g data r reg0 n i' st').map GradSt.recon := by
  have hstep : ∀ i gr gr0 rc rc0 s, gradStep ngx ngy reg0 i gr gr0 rc rc0 s = some reg0 := by
    intros
    unfold gradStep
    rw [if_neg (not_lt.mpr h0)]
  induction n with
  | zero => intro i i' st st' h; exact congrArg some h
  | succ n ih =>
    intro i i' st st' h
    simp only [gradIters, gradIter, hstep, Option.isSome_some, implies_true, if_true, Option.bind_some]
    exact ih _ _ _ _ (by simp only [h])

theorem gradIters_add (extra : Mem K → Mem K → Mem K) (D : Dims) (ngx ngy : Nat) (g : Geom K) (data : Mem K)
    (r reg0 : K) (a b : Nat) : ∀ (i : Nat) (st : GradSt K),
      gradIters extra D ngx ngy g data r reg0 (a + b) i st =
        (gradIters extra D ngx ngy g data r reg0 a i st).bind
          (gradIters extra D ngx ngy g data r reg0 b (i + a)) := by
  induction a with
  | zero => intro i st; rw [Nat.zero_add]; rfl
  | succ a ih =>
    intro i st
    rw [Nat.add_right_comm]
    simp only [gradIters, Option.bind_assoc]
    refine congrArg (gradIter extra D ngx ngy g data r reg0 i st).bind (funext fun st' => ?_)
    rw [ih, show i + 1 + a = i + (a + 1) by omega]

theorem unscale_scale {r : K} (hr : r ≠ 0) (dy ngx ngy : Nat) (m : Mem K) :
    forPix dy ngx ngy (fun _ _ v => v / r) (forPix dy ngx ngy (fun _ _ v => v * r) m) = m := by
  funext x
  rw [forPix_apply, forPix_apply]
  split
  · rw [mul_div_cancel_right₀ _ hr]
  · rfl

/-- `grad` and `tikh` with a step that is given. -/
theorem gradRun_continues (extra : Mem K → Mem K → Mem K) (D : Dims) (ngx ngy : Nat) (g : Geom K) (data : Mem K)
    {r reg0 : K} (hr : r ≠ 0) (h0 : 0 ≤ reg0) :
    Continues fun k recon => gradRun extra D ngx ngy g data k r reg0 recon := by
  intro a b recon
  simp only [gradRun]
  split
  · rfl
  · rw [gradIters_add]
    cases e : gradIters extra D ngx ngy g data r reg0 a 0
      ⟨forPix D.dy ngx ngy (fun _ _ v => v / r) recon, zeros,
        forPix D.dy ngx ngy (fun _ _ v => v / r) recon⟩ with
    | none => rfl
    | some st =>
      simp only [Option.bind_some, Option.map_some]
      rw [unscale_scale hr]
      have h := gradIters_fixed extra D ngx ngy g data r h0 b (0 + a) 0 st ⟨st.recon, zeros, st.recon⟩ rfl
      have h' := congrArg (Option.map (forPix D.dy ngx ngy fun _ _ v => v * r)) h
      rw [Option.map_map, Option.map_map] at h'
      exact h'

/-- **C175 (partial)** `grad`, if the step is given (`reg_par[0] >= 0`). -/
theorem grad_continues_partial (D : Dims) (ngx ngy : Nat) (g : Geom K) (data : Mem K) {r reg0 : K} (hr : r ≠ 0)
    (h0 : 0 ≤ reg0) : Continues fun k recon => grad D ngx ngy g data k r reg0 recon :=
  gradRun_continues _ D ngx ngy g data hr h0

/-- **C175 (partial)** `tikh`, if the step is given. -/
theorem tikh_continues_partial (D : Dims) (ngx ngy : Nat) (g : Geom K) (data : Mem K) {r reg0 : K} (reg1 : K)
    (regData : Mem K) (hr : r ≠ 0) (h0 : 0 ≤ reg0) :
    Continues fun k recon => tikh D ngx ngy g data k r reg0 reg1 regData recon :=
  gradRun_continues _ D ngx ngy g data hr h0

/-- `vector`. -/
theorem vector_continues (D : Dims) (ngx ngy : Nat) (g : Geom K) (v : Nat → K × K) (data : Mem K) (a b : Nat)
    (R : Nat → Mem K) :
    vector D ngx ngy g v data (a + b) R = (vector D ngx ngy g v data a R).bind (vector D ngx ngy g v data b) :=
  iterM_add _ a b R

/-! ## Where it fails -/

/-- One view, two detector pixels; the first sees the only pixel of the image over the length 1. -/
def onePixel : Geom K := fun _ _ d => if d = 0 then [(0, 1)] else []

theorem onePixel_gradient (data rc : Mem K) (r : K) :
    gradient ⟨1, 1, 2, 1⟩ onePixel data rc r 0 = 2 * r * (rc 0 * r - data 0) := by
  simp [gradient, gradRay, onePixel, calcSimdata, sumDist2, spread, addAt, zeros, Dims.data, List.range_succ]

/-- **C175 (refutation)** `grad` with the automatic step (`reg_par[0] < 0`), one pixel seen by one
ray, scale 1: the second iteration of a call finds the pixel exactly; the first iteration of a second call takes
the step 1/1000 once more. -/
theorem grad_auto_restarts {x y reg0 : K} (h0 : reg0 < 0) (hx : x ≠ y) :
    (∃ o, grad ⟨1, 1, 2, 1⟩ 1 1 onePixel (fun _ => y) 2 1 reg0 (fun _ => x) = some o ∧ o 0 = y) ∧
    ∃ o1 o2, grad ⟨1, 1, 2, 1⟩ 1 1 onePixel (fun _ => y) 1 1 reg0 (fun _ => x) = some o1 ∧
      grad ⟨1, 1, 2, 1⟩ 1 1 onePixel (fun _ => y) 1 1 reg0 o1 = some o2 ∧
      o2 0 - y = (998 / 1000) ^ 2 * (x - y) := by
  have first : ∀ st : GradSt K, ∃ st', gradIter (fun _ gr => gr) ⟨1, 1, 2, 1⟩ 1 1 onePixel (fun _ => y) 1 reg0 0
      st = some st' ∧ st'.recon 0 = st.recon 0 - 1 / 1000 * (2 * (st.recon 0 - y)) ∧
      st'.gr0 0 = 2 * (st.recon 0 - y) ∧ st'.recon0 0 = st.recon 0 := by
    intro st
    have hs : ∀ gr gr0 rc rc0 : Mem K, ∀ s, gradStep 1 1 reg0 0 gr gr0 rc rc0 s = some (1 / 1000) := by
      intros; unfold gradStep; rw [if_pos h0, if_pos rfl]
    refine ⟨_, by unfold gradIter; simp only [hs]; exact if_pos fun _ _ => rfl, ?_, ?_, rfl⟩
    · dsimp only
      rw [forPix_apply]
      simp only [onePixel_gradient, mul_one, Nat.zero_lt_one, if_true, Option.getD_some]
    · dsimp only
      rw [onePixel_gradient]
      ring
  have second : ∀ st : GradSt K, st.gr0 0 = 2 * (st.recon0 0 - y) → st.recon 0 ≠ st.recon0 0 →
      ∃ st', gradIter (fun _ gr => gr) ⟨1, 1, 2, 1⟩ 1 1 onePixel (fun _ => y) 1 reg0 1 st = some st' ∧
        st'.recon 0 = y := by
    intro st hg hne
    have hne' : st.recon 0 - st.recon0 0 ≠ 0 := sub_ne_zero.mpr hne
    have e0 : gradient ⟨1, 1, 2, 1⟩ onePixel (fun _ => y) st.recon 1 0 - st.gr0 0 =
        2 * (st.recon 0 - st.recon0 0) := by rw [onePixel_gradient, hg]; ring
    have hs : gradStep 1 1 reg0 1 (gradient ⟨1, 1, 2, 1⟩ onePixel (fun _ => y) st.recon 1) st.gr0 st.recon
        st.recon0 0 = some (1 / 2) := by
      unfold gradStep
      rw [if_pos h0, if_neg one_ne_zero]
      simp only [sumPix, List.range_one, List.foldl_cons, List.foldl_nil, Nat.zero_mul, Nat.add_zero, zero_add, e0]
      rw [if_neg (by positivity)]
      congr 1
      field_simp
    refine ⟨_, by
      unfold gradIter
      exact if_pos fun s hs' => by
        have hs0 : s = 0 := Nat.lt_one_iff.mp hs'
        subst hs0
        rw [hs]; rfl, ?_⟩
    dsimp only
    rw [forPix_apply]
    simp only [mul_one, Nat.zero_lt_one, if_true, Nat.zero_div, hs, Option.getD_some, onePixel_gradient]
    ring
  have un : ∀ m : Mem K, forPix 1 1 1 (fun _ _ v => v * (1 : K)) m 0 = m 0 := by
    intro m; rw [forPix_apply]; simp
  have un' : ∀ m : Mem K, forPix 1 1 1 (fun _ _ v => v / (1 : K)) m 0 = m 0 := by
    intro m; rw [forPix_apply]; simp
  have hrun : ∀ k m, grad ⟨1, 1, 2, 1⟩ 1 1 onePixel (fun _ => y) k 1 reg0 m =
      (gradIters (fun _ gr => gr) ⟨1, 1, 2, 1⟩ 1 1 onePixel (fun _ => y) 1 reg0 k 0
        ⟨forPix 1 1 1 (fun _ _ v => v / 1) m, zeros, forPix 1 1 1 (fun _ _ v => v / 1) m⟩).map
      fun st => forPix 1 1 1 (fun _ _ v => v * 1) st.recon := by
    intro k m
    unfold grad gradRun
    rw [if_neg (by simp)]
  have one : ∀ m : Mem K, ∃ o, grad ⟨1, 1, 2, 1⟩ 1 1 onePixel (fun _ => y) 1 1 reg0 m = some o ∧
      o 0 - y = 998 / 1000 * (m 0 - y) := by
    intro m
    obtain ⟨st, e, v, -, -⟩ := first ⟨forPix 1 1 1 (fun _ _ v => v / 1) m, zeros,
      forPix 1 1 1 (fun _ _ v => v / 1) m⟩
    refine ⟨forPix 1 1 1 (fun _ _ v => v * 1) st.recon, by
      rw [hrun]; simp only [gradIters, e, Option.bind_some, Option.map_some], ?_⟩
    simp only [un'] at v
    rw [un, v]
    ring
  obtain ⟨o1, e1, v1⟩ := one fun _ => x
  obtain ⟨o2, e2, v2⟩ := one o1
  refine ⟨?_, o1, o2, e1, e2, by rw [v2, v1]; ring⟩
  obtain ⟨st, e, v, vg, v0⟩ := first ⟨forPix 1 1 1 (fun _ _ v => v / 1) fun _ => x, zeros,
    forPix 1 1 1 (fun _ _ v => v / 1) fun _ => x⟩
  simp only [un'] at v vg v0
  obtain ⟨st2, e2, v2⟩ := second st (by rw [vg, v0]) (by
    rw [v, v0]
    intro h
    exact hx (by linarith))
  exact ⟨forPix 1 1 1 (fun _ _ v => v * 1) st2.recon, by
    rw [hrun]; simp only [gradIters, e, e2, Option.bind_some, Option.map_some, Nat.zero_add], by rw [un, v2]⟩

theorem onePixel_tvIter (c lam y : ℝ) (st : TvSt) (hx : st.px 0 = 0) (hy : st.py 0 = 0) :
    ∃ st', tvIter c 1 lam ⟨1, 1, 2, 1⟩ 1 1 onePixel (fun _ => y) st = some st' ∧ st'.px 0 = 0 ∧ st'.py 0 = 0 ∧
      st'.acc.p1 0 = (st.acc.p1 0 + c * st.recon 0 - c * y) / (1 + c) ∧
      st'.upd 0 = st.upd 0 - c * st'.acc.p1 0 ∧ st'.recon 0 = 2 * st'.upd 0 - st.upd 0 := by
  refine ⟨_, by simp only [tvIter, List.range_one, List.foldlM_cons, List.foldlM_nil, tvSlice, tvProjLoop, tvGrad,
    Nat.sub_self, List.range_zero, List.foldl_nil]; rfl, ?_, ?_, ?_, ?_, ?_⟩ <;>
  simp [gridLoop, tvRay, onePixel, calcSimdata, sumDist2, spread, addAt, zeros, Dims.data, List.range_succ, tvDiv,
    hx, hy]

/-- **C175 (refutation)** `tv`, one pixel seen by one ray (`r = 1` for two detector pixels and one view), from 0:
the dual variable of the data term starts at 0 in every call. -/
theorem tv_restarts {lam y : ℝ} (hy : y ≠ 0) :
    ∃ o o1 o2, tv lam ⟨1, 1, 2, 1⟩ 1 1 onePixel (fun _ => y) 2 (fun _ => 0) = some o ∧
      tv lam ⟨1, 1, 2, 1⟩ 1 1 onePixel (fun _ => y) 1 (fun _ => 0) = some o1 ∧
      tv lam ⟨1, 1, 2, 1⟩ 1 1 onePixel (fun _ => y) 1 o1 = some o2 ∧ o 0 ≠ o2 0 := by
  have hr : gradScale ⟨1, 1, 2, 1⟩ = 1 := by simp [gradScale]
  have un : ∀ m : Mem ℝ, forPix 1 1 1 (fun _ _ v => v * (1 : ℝ)) m 0 = m 0 := by
    intro m; rw [forPix_apply]; simp
  have un' : ∀ m : Mem ℝ, forPix 1 1 1 (fun _ _ v => v / (1 : ℝ)) m 0 = m 0 := by
    intro m; rw [forPix_apply]; simp
  have hrun : ∀ k m, tv lam ⟨1, 1, 2, 1⟩ 1 1 onePixel (fun _ => y) k m =
      (iterM (tvIter tvC 1 lam ⟨1, 1, 2, 1⟩ 1 1 onePixel fun _ => y) k
        ⟨forPix 1 1 1 (fun _ _ v => v / 1) m, forPix 1 1 1 (fun _ _ v => v / 1) m, zeros, zeros,
          ⟨zeros, zeros, zeros⟩⟩).map fun st => forPix 1 1 1 (fun _ _ v => v * 1) st.recon := by
    intro k m
    unfold tv tvRun
    rw [if_neg (by simp), hr]
  have one : ∀ m : Mem ℝ, ∃ st, tvIter tvC 1 lam ⟨1, 1, 2, 1⟩ 1 1 onePixel (fun _ => y)
      ⟨forPix 1 1 1 (fun _ _ v => v / 1) m, forPix 1 1 1 (fun _ _ v => v / 1) m, zeros, zeros,
          ⟨zeros, zeros, zeros⟩⟩ = some st ∧ st.px 0 = 0 ∧ st.py 0 = 0 ∧
      st.acc.p1 0 = (tvC * m 0 - tvC * y) / (1 + tvC) ∧ st.upd 0 = m 0 - tvC * st.acc.p1 0 ∧
      st.recon 0 = 2 * st.upd 0 - m 0 := by
    intro m
    obtain ⟨st, e, h1, h2, h3, h4, h5⟩ := onePixel_tvIter tvC lam y ⟨forPix 1 1 1 (fun _ _ v => v / 1) m,
      forPix 1 1 1 (fun _ _ v => v / 1) m, zeros, zeros, ⟨zeros, zeros, zeros⟩⟩ rfl rfl
    simp only [un', zeros, zero_add] at h3 h4 h5
    exact ⟨st, e, h1, h2, h3, h4, h5⟩
  obtain ⟨st1, e1, px1, py1, p1, u1, r1⟩ := one fun _ => 0
  obtain ⟨st2, e2, -, -, p2, u2, r2⟩ := onePixel_tvIter tvC lam y st1 px1 py1
  obtain ⟨st3, e3, -, -, p3, u3, r3⟩ := one (forPix 1 1 1 (fun _ _ v => v * 1) st1.recon)
  refine ⟨forPix 1 1 1 (fun _ _ v => v * 1) st2.recon, forPix 1 1 1 (fun _ _ v => v * 1) st1.recon,
    forPix 1 1 1 (fun _ _ v => v * 1) st3.recon, ?_, ?_, ?_, ?_⟩
  · rw [hrun]; simp only [iterM, e1, e2, Option.bind_eq_bind, Option.bind_some, Option.map_some]
  · rw [hrun]; simp only [iterM, e1, Option.bind_eq_bind, Option.bind_some, Option.map_some]
  · rw [hrun]; simp only [iterM, e3, Option.bind_eq_bind, Option.bind_some, Option.map_some]
  · rw [un, un]
    simp only [un] at p3 u3 r3
    intro h
    rw [r3, r2, u3, u2, p3, p2, r1, u1, p1] at h
    apply hy
    norm_num [tvC] at h
    linarith

end Tomopy.Iter
