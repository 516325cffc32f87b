import Verif.Iter.TvConv
import Verif.Iter.Landweber
import Mathlib.Data.Matrix.ColumnRowPartitioned

/-!
# Convergence of `grad` and `tikh` with a given step (C151)

With `reg_par[0] ≥ 0` both methods are gradient descent with that step.  They converge for all data
and all initial images exactly if the step is shorter than the inverse of the square of the norm of
the scaled projector.
-/

set_option linter.unusedSectionVars false

namespace Tomopy.Iter

open Function (update)
open Matrix Filter Topology

/-- What gradient descent minimises on slice `s`: squared residual of the ray sums plus `reg1` times
the squared difference between the image divided by `r` and `regData`. -/
noncomputable def lsEnergy (D : Dims) (g : Geom ℝ) (data : Mem ℝ) (r reg1 : ℝ) (regData : Mem ℝ) (s : Nat)
    (u : Mem ℝ) : ℝ :=
  ∑ p ∈ Finset.range D.dt, ∑ d ∈ Finset.range D.dx,
      (lineSum D.N s (g s p d) u - data (D.data s p d)) ^ 2 +
    reg1 * ∑ n ∈ Finset.range D.N, (u (n + s * D.N) / r - regData (n + s * D.N)) ^ 2

/-- The squared residual of slice `s`. -/
noncomputable def resSq (D : Dims) (g : Geom ℝ) (data : Mem ℝ) (s : Nat) (u : Mem ℝ) : ℝ :=
  ∑ p ∈ Finset.range D.dt, ∑ d ∈ Finset.range D.dx, (lineSum D.N s (g s p d) u - data (D.data s p d)) ^ 2

/-- The step `τ` is shorter than the inverse of the largest ratio of the regularised squared norm of
the scaled ray sums of an image to its squared norm. -/
def ShortStep (τ r reg1 : ℝ) (D : Dims) (g : Geom ℝ) : Prop :=
  ∀ s < D.dy, ∀ u, pixSq D s u ≠ 0 → τ * (r ^ 2 * raySq D g s u + reg1 * pixSq D s u) < pixSq D s u

/-- The operator of slice `s`. -/
noncomputable def lsOp (r reg1 : ℝ) (D : Dims) (g : Geom ℝ) (s : Nat) :
    Matrix (RayIx D ⊕ Fin D.N) (Fin D.N) ℝ :=
  Matrix.fromRows (tvR r D g s) (Real.sqrt reg1 • (1 : Matrix (Fin D.N) (Fin D.N) ℝ))

/-- The data of slice `s`. -/
noncomputable def lsDat (D : Dims) (data : Mem ℝ) (reg1 : ℝ) (regData : Mem ℝ) (s : Nat) :
    RayIx D ⊕ Fin D.N → ℝ := Sum.elim (dat D s data) (Real.sqrt reg1 • pix D s regData)

theorem lsOp_mulVec (r reg1 : ℝ) (D : Dims) (g : Geom ℝ) (s : Nat) (x : Fin D.N → ℝ) :
    lsOp r reg1 D g s *ᵥ x = Sum.elim (tvR r D g s *ᵥ x) (Real.sqrt reg1 • x) := by
  unfold lsOp
  rw [Matrix.fromRows_mulVec, Matrix.smul_mulVec, Matrix.one_mulVec]

theorem elim_dot {J J' : Type} [Fintype J] [Fintype J'] (a : J → ℝ) (b : J' → ℝ) :
    Sum.elim a b ⬝ᵥ Sum.elim a b = a ⬝ᵥ a + b ⬝ᵥ b := by
  simp [dotProduct]

theorem ray_dot {D : Dims} {g : Geom ℝ} (hg : GeomOk D g) {s : Nat} (hs : s < D.dy) (r : ℝ) (u : Mem ℝ) :
    (tvR r D g s *ᵥ pix D s u) ⬝ᵥ (tvR r D g s *ᵥ pix D s u) = r ^ 2 * raySq D g s u := by
  unfold raySq
  rw [← sum_ray_fin (fun p d => lineSum D.N s (g s p d) u ^ 2), Finset.mul_sum]
  simp only [dotProduct]
  apply Finset.sum_congr rfl
  intro b _
  rw [tvR_mulVec hg hs r u b]
  ring

theorem pix_dot (D : Dims) (s : Nat) (u : Mem ℝ) : pix D s u ⬝ᵥ pix D s u = pixSq D s u := by
  unfold pixSq
  rw [← Fin.sum_univ_eq_sum_range (fun n => u (n + s * D.N) ^ 2) D.N]
  simp only [dotProduct, pix]
  exact Finset.sum_congr rfl fun n _ => by ring

theorem lsOp_norm {D : Dims} {g : Geom ℝ} (hg : GeomOk D g) {s : Nat} (hs : s < D.dy) (r : ℝ) {reg1 : ℝ}
    (h1 : 0 ≤ reg1) (u : Mem ℝ) :
    (lsOp r reg1 D g s *ᵥ pix D s u) ⬝ᵥ (lsOp r reg1 D g s *ᵥ pix D s u) =
      r ^ 2 * raySq D g s u + reg1 * pixSq D s u := by
  rw [lsOp_mulVec, elim_dot, ray_dot hg hs, smul_dotProduct, dotProduct_smul, pix_dot, smul_eq_mul,
    smul_eq_mul, ← mul_assoc, Real.mul_self_sqrt h1]

theorem lsEnergy_eq {D : Dims} {g : Geom ℝ} (hg : GeomOk D g) {s : Nat} (hs : s < D.dy) {r : ℝ}
    (hr : 0 < r) {reg1 : ℝ} (h1 : 0 ≤ reg1) (data regData u : Mem ℝ) :
    lsEnergy D g data r reg1 regData s u =
      Lw.res2 (lsOp r reg1 D g s) (lsDat D data reg1 regData s) (pix D s fun i => u i / r) := by
  unfold Lw.res2 lsEnergy
  have e : lsOp r reg1 D g s *ᵥ (pix D s fun i => u i / r) - lsDat D data reg1 regData s =
      Sum.elim (tvR r D g s *ᵥ (pix D s fun i => u i / r) - dat D s data)
        (Real.sqrt reg1 • (pix D s fun i => u i / r - regData i)) := by
    rw [lsOp_mulVec]
    unfold lsDat
    funext j
    rcases j with j | j
    · rfl
    · show Real.sqrt reg1 * _ - Real.sqrt reg1 * _ = Real.sqrt reg1 * (_ - _)
      rw [mul_sub]
      rfl
  rw [e, elim_dot]
  congr 1
  · rw [← sum_ray_fin (fun p d => (lineSum D.N s (g s p d) u - data (D.data s p d)) ^ 2)]
    simp only [dotProduct]
    apply Finset.sum_congr rfl
    intro b _
    have h2 : (tvR r D g s *ᵥ (pix D s fun i => u i / r)) b = lineSum D.N s (g s b.1 b.2) u := by
      rw [tvR_mulVec hg hs]
      have := lineSum_add (N := D.N) (s := s) (g s b.1 b.2) (1 / r) 0 u u
      simp only [zero_mul, add_zero] at this
      rw [show (fun i => u i / r) = fun i => 1 / r * u i from funext fun i => by ring, this]
      field_simp
    show _ = ((tvR r D g s *ᵥ (pix D s fun i => u i / r)) b - data _) *
      ((tvR r D g s *ᵥ (pix D s fun i => u i / r)) b - data _)
    rw [h2]
    ring
  · rw [smul_dotProduct, dotProduct_smul, pix_dot, smul_eq_mul, smul_eq_mul, ← mul_assoc,
      Real.mul_self_sqrt h1]
    rfl

/-- One step of the code is one step of gradient descent on every slice. -/
theorem grad_lwStep {D : Dims} {g : Geom ℝ} (hg : GeomOk D g) {s : Nat} (hs : s < D.dy) {r reg0 reg1 : ℝ}
    (h1 : 0 ≤ reg1) (data regData rc gr rc' : Mem ℝ)
    (hgr : ∀ n < D.N, gr (n + s * D.N) = gradient D g data rc r (n + s * D.N) +
      2 * reg1 * (rc (n + s * D.N) - regData (n + s * D.N)))
    (hrc : ∀ n < D.N, rc' (n + s * D.N) = rc (n + s * D.N) - reg0 * gr (n + s * D.N)) :
    pix D s rc' = Lw.step (lsOp r reg1 D g s) (lsDat D data reg1 regData s) reg0 (pix D s rc) := by
  funext n
  unfold Lw.step
  have e : lsOp r reg1 D g s *ᵥ pix D s rc - lsDat D data reg1 regData s =
      Sum.elim (tvR r D g s *ᵥ pix D s rc - dat D s data)
        (Real.sqrt reg1 • (pix D s fun i => rc i - regData i)) := by
    rw [lsOp_mulVec]
    unfold lsDat
    funext j
    rcases j with j | j
    · rfl
    · show Real.sqrt reg1 * _ - Real.sqrt reg1 * _ = Real.sqrt reg1 * (_ - _)
      rw [mul_sub]
      rfl
  rw [e]
  unfold lsOp
  rw [Matrix.vecMul_fromRows, Sum.elim_comp_inl, Sum.elim_comp_inr, Matrix.vecMul_smul, Matrix.vecMul_one,
    smul_smul, Real.mul_self_sqrt h1]
  have h2 : ((tvR r D g s *ᵥ pix D s rc - dat D s data) ᵥ* tvR r D g s) n * 2 =
      gradient D g data rc r (n + s * D.N) := by
    rw [gradient_spec hg data rc r hs n.2]
    unfold gradSpec
    rw [← sum_ray_fin (fun p d => 2 * r * (r * lineSum D.N s (g s p d) rc - data (D.data s p d)) *
      lenIn (g s p d) n)]
    simp only [vecMul, dotProduct]
    rw [Finset.sum_mul]
    apply Finset.sum_congr rfl
    intro b _
    show ((tvR r D g s *ᵥ pix D s rc) b - data (D.data s b.1 b.2)) * (r * lenIn (g s b.1 b.2) n) * 2 = _
    rw [tvR_mulVec hg hs]
    ring
  show rc' (n + s * D.N) = rc (n + s * D.N) - 2 * reg0 * (_ + reg1 * (rc (n + s * D.N) - regData (n + s * D.N)))
  rw [hrc n n.2, hgr n n.2, ← h2]
  ring

/-- With a given step every iteration is defined; the iterates are those of gradient descent. -/
theorem gradRun_value {extra : Mem ℝ → Mem ℝ → Mem ℝ} {D : Dims} {ngx ngy : Nat} (hN : D.N = ngx * ngy)
    {g : Geom ℝ} (hg : GeomOk D g) {r reg0 reg1 : ℝ} (h0 : 0 ≤ reg0) (h1 : 0 ≤ reg1)
    (hD : ¬ (D.dy = 0 ∨ D.dt = 0 ∨ D.dx = 0)) {regData : Mem ℝ}
    (hex : ∀ rc gr, ∀ s < D.dy, ∀ n < D.N, extra rc gr (n + s * D.N) = gr (n + s * D.N) +
      2 * reg1 * (rc (n + s * D.N) - regData (n + s * D.N))) (data recon : Mem ℝ) :
    ∃ out : ℕ → Mem ℝ, (∀ k, gradRun extra D ngx ngy g data k r reg0 recon = some (out k)) ∧
      ∀ k, ∀ s < D.dy, pix D s (out k) = r • ((Lw.step (lsOp r reg1 D g s)
        (lsDat D data reg1 regData s) reg0)^[k] (pix D s fun i => recon i / r)) := by
  have hstep : ∀ i gr gr0 rc rc0 s, gradStep ngx ngy reg0 i gr gr0 rc rc0 s = some reg0 := by
    intro i gr gr0 rc rc0 s
    unfold gradStep
    rw [if_neg (not_lt.mpr h0)]
  obtain ⟨F, hF⟩ : ∃ F : GradSt ℝ → GradSt ℝ, ∀ i st,
      gradIter extra D ngx ngy g data r reg0 i st = some (F st) := by
    refine ⟨fun st => ⟨forPix D.dy ngx ngy (fun s x v => v - reg0 *
      extra st.recon (gradient D g data st.recon r) x) st.recon,
      extra st.recon (gradient D g data st.recon r), st.recon⟩, fun i st => ?_⟩
    unfold gradIter
    simp only [hstep, Option.isSome_some, implies_true, if_true, Option.getD_some]
  have hit : ∀ k i st, gradIters extra D ngx ngy g data r reg0 k i st = some (F^[k] st) := by
    intro k
    induction k with
    | zero => intro i st; rfl
    | succ k ih =>
      intro i st
      rw [gradIters, hF, Option.bind_some, ih, Function.iterate_succ_apply]
  have hpix : ∀ st, ∀ s < D.dy, pix D s (F st).recon = Lw.step (lsOp r reg1 D g s)
      (lsDat D data reg1 regData s) reg0 (pix D s st.recon) := by
    intro st s hs
    refine grad_lwStep hg hs h1 data regData st.recon
      (extra st.recon (gradient D g data st.recon r)) _ (fun n hn => hex _ _ s hs n hn) ?_
    intro n hn
    obtain ⟨a, ha, hv⟩ := grad_iteration hN (hF 0 st) s hs
    rw [hstep] at ha
    injection ha with ha
    rw [hv n hn, ha]
  have hpixk : ∀ st k, ∀ s < D.dy, pix D s (F^[k] st).recon = (Lw.step (lsOp r reg1 D g s)
      (lsDat D data reg1 regData s) reg0)^[k] (pix D s st.recon) := by
    intro st k s hs
    induction k with
    | zero => rfl
    | succ k ih => rw [Function.iterate_succ_apply', hpix _ s hs, ih, Function.iterate_succ_apply']
  refine ⟨fun k => forPix D.dy ngx ngy (fun _ _ v => v * r)
    (F^[k] ⟨forPix D.dy ngx ngy (fun _ _ v => v / r) recon, zeros,
      forPix D.dy ngx ngy (fun _ _ v => v / r) recon⟩).recon, fun k => ?_, fun k s hs => ?_⟩
  · unfold gradRun
    rw [if_neg hD, hit]
    rfl
  · have e : pix D s (forPix D.dy ngx ngy (fun _ _ v => v / r) recon) = pix D s fun i => recon i / r := by
      funext n
      exact forPix_pixel hN _ _ hs n.2
    rw [← e]
    have := hpixk ⟨forPix D.dy ngx ngy (fun _ _ v => v / r) recon, zeros,
      forPix D.dy ngx ngy (fun _ _ v => v / r) recon⟩ k s hs
    rw [← this]
    funext n
    show forPix D.dy ngx ngy (fun _ _ v => v * r) _ (n + s * D.N) = r * _
    rw [forPix_pixel hN _ _ hs n.2, mul_comm]
    rfl

theorem shortStep_iff {D : Dims} {g : Geom ℝ} (hg : GeomOk D g) {r τ reg1 : ℝ} (h1 : 0 ≤ reg1) :
    ShortStep τ r reg1 D g ↔ ∀ s < D.dy, ∀ x, x ≠ 0 →
      τ * ((lsOp r reg1 D g s *ᵥ x) ⬝ᵥ (lsOp r reg1 D g s *ᵥ x)) < x ⬝ᵥ x := by
  constructor
  · intro h s hs x hx
    have := h s hs (ofPix D s x)
    rw [← lsOp_norm hg hs r h1, ← pix_dot, pix_ofPix] at this
    exact this (fun e => hx (Lw.dot_zero_iff.mp e))
  · intro h s hs u hu
    rw [← lsOp_norm hg hs r h1, ← pix_dot]
    rw [← pix_dot] at hu
    exact h s hs _ (fun e => hu (Lw.dot_zero_iff.mpr e))

/-- The result of gradient descent converges to the minimiser nearest to the initial image. -/
theorem gradRun_converges {extra : Mem ℝ → Mem ℝ → Mem ℝ} {D : Dims} {ngx ngy : Nat} (hN : D.N = ngx * ngy)
    {g : Geom ℝ} (hg : GeomOk D g) {r reg0 reg1 : ℝ} (hr : 0 < r) (h0 : 0 < reg0) (h1 : 0 ≤ reg1)
    (hD : ¬ (D.dy = 0 ∨ D.dt = 0 ∨ D.dx = 0)) {regData : Mem ℝ}
    (hex : ∀ rc gr, ∀ s < D.dy, ∀ n < D.N, extra rc gr (n + s * D.N) = gr (n + s * D.N) +
      2 * reg1 * (rc (n + s * D.N) - regData (n + s * D.N)))
    (hs : ShortStep reg0 r reg1 D g) (data recon : Mem ℝ) :
    ∃ (out : ℕ → Mem ℝ) (u : Mem ℝ), (∀ k, gradRun extra D ngx ngy g data k r reg0 recon = some (out k)) ∧
      ∀ s < D.dy, (∀ n < D.N, Tendsto (fun k => out k (n + s * D.N)) atTop (𝓝 (u (n + s * D.N)))) ∧
        (∀ u', lsEnergy D g data r reg1 regData s u ≤ lsEnergy D g data r reg1 regData s u') ∧
        ∀ u', lsEnergy D g data r reg1 regData s u' = lsEnergy D g data r reg1 regData s u →
          pixSq D s (fun i => u i - recon i) ≤ pixSq D s (fun i => u' i - recon i) := by
  obtain ⟨out, hout, hval⟩ := gradRun_value hN hg h0.le h1 hD hex data recon
  rw [shortStep_iff hg h1] at hs
  have hz : ∀ s, ∃ z, s < D.dy → Lw.Normal (lsOp r reg1 D g s) (lsDat D data reg1 regData s) z ∧
      Tendsto (fun k => (Lw.step (lsOp r reg1 D g s) (lsDat D data reg1 regData s) reg0)^[k]
        (pix D s fun i => recon i / r)) atTop (𝓝 z) ∧
      ∃ y, z - (pix D s fun i => recon i / r) = y ᵥ* lsOp r reg1 D g s := by
    intro s
    by_cases hsd : s < D.dy
    · obtain ⟨κ, k0, k1, hκ⟩ := Lw.uniform_of_strict h0.le (hs s hsd)
      obtain ⟨z, h⟩ := Lw.converges h0 k0 k1 hκ (lsDat D data reg1 regData s) (pix D s fun i => recon i / r)
      exact ⟨z, fun _ => h⟩
    · exact ⟨0, fun h => absurd h hsd⟩
  choose z hz using hz
  obtain ⟨u, hu⟩ : ∃ u : Mem ℝ, ∀ s, ∀ n : Fin D.N, u (n + s * D.N) = r * z s n := by
    refine ⟨fun i => if h : i % D.N < D.N then r * z (i / D.N) ⟨i % D.N, h⟩ else 0, fun s n => ?_⟩
    have e1 : ((n : Nat) + s * D.N) / D.N = s := pix_div n.2
    have e2 : ((n : Nat) + s * D.N) % D.N = n := by
      rw [Nat.add_mul_mod_self_right, Nat.mod_eq_of_lt n.2]
    simp only [e1, e2, dif_pos n.2]
  have hpu : ∀ s, (pix D s fun i => u i / r) = z s := by
    intro s
    funext n
    show u (n + s * D.N) / r = _
    rw [hu]
    field_simp
  refine ⟨out, u, hout, fun s hsd => ⟨fun n hn => ?_, fun u' => ?_, fun u' he => ?_⟩⟩
  · have ht := tendsto_pi_nhds.mp ((hz s hsd).2.1) ⟨n, hn⟩
    have := ht.const_mul r
    rw [← hu s ⟨n, hn⟩] at this
    refine this.congr fun k => ?_
    have h2 := congrFun (hval k s hsd) ⟨n, hn⟩
    exact h2.symm
  · rw [lsEnergy_eq hg hsd hr h1, lsEnergy_eq hg hsd hr h1, hpu]
    exact Lw.normal_minimises (hz s hsd).1 _
  · rw [lsEnergy_eq hg hsd hr h1, lsEnergy_eq hg hsd hr h1, hpu] at he
    have hn : Lw.Normal (lsOp r reg1 D g s) (lsDat D data reg1 regData s) (pix D s fun i => u' i / r) :=
      Lw.minimises_normal fun x => he ▸ Lw.normal_minimises (hz s hsd).1 x
    have := Lw.nearest (hz s hsd).1 hn (hz s hsd).2.2
    rw [← hpu] at this
    have e : ∀ v : Mem ℝ, pixSq D s (fun i => v i - recon i) = r ^ 2 *
        (((pix D s fun i => v i / r) - (pix D s fun i => recon i / r)) ⬝ᵥ
          ((pix D s fun i => v i / r) - (pix D s fun i => recon i / r))) := by
      intro v
      rw [show (pix D s fun i => v i / r) - (pix D s fun i => recon i / r) =
        pix D s fun i => (v i - recon i) / r from funext fun n => (sub_div _ _ _).symm, pix_dot]
      unfold pixSq
      rw [Finset.mul_sum]
      apply Finset.sum_congr rfl
      intro n _
      field_simp
    rw [e, e]
    exact mul_le_mul_of_nonneg_left this (sq_nonneg r)

/-- With a longer step there are data zero and an initial image for which some pixel does not
converge. -/
theorem gradRun_not_converges {extra : Mem ℝ → Mem ℝ → Mem ℝ} {D : Dims} {ngx ngy : Nat}
    (hN : D.N = ngx * ngy) {g : Geom ℝ} (hg : GeomOk D g) {r reg0 reg1 : ℝ} (hr : 0 < r) (h0 : 0 < reg0)
    (h1 : 0 ≤ reg1) (hD : ¬ (D.dy = 0 ∨ D.dt = 0 ∨ D.dx = 0))
    (hex : ∀ rc gr, ∀ s < D.dy, ∀ n < D.N, extra rc gr (n + s * D.N) = gr (n + s * D.N) +
      2 * reg1 * (rc (n + s * D.N) - 0))
    (hs : ¬ ShortStep reg0 r reg1 D g) :
    ∃ (recon : Mem ℝ) (out : ℕ → Mem ℝ),
      (∀ k, gradRun extra D ngx ngy g (fun _ => 0) k r reg0 recon = some (out k)) ∧
      ∃ s < D.dy, ∃ n < D.N, ∀ l, ¬ Tendsto (fun k => out k (n + s * D.N)) atTop (𝓝 l) := by
  rw [shortStep_iff hg h1] at hs
  push Not at hs
  obtain ⟨s, hsd, x0, hx0, hle⟩ := hs
  obtain ⟨e, i, hne⟩ := Lw.not_converges h0 hx0 hle
  obtain ⟨out, hout, hval⟩ := gradRun_value hN hg h0.le h1 hD (regData := fun _ => 0) hex
    (fun _ => 0) (ofPix D s fun n => e n * r)
  refine ⟨_, out, hout, s, hsd, i, i.2, fun l hl => hne (l / r) ?_⟩
  have h2 := hl.div_const r
  refine h2.congr fun k => ?_
  have h3 := congrFun (hval k s hsd) i
  have hp : (pix D s fun i => ofPix D s (fun n => e n * r) i / r) = e := by
    have := pix_ofPix D s fun n => e n * r
    funext n
    have h4 := congrFun this n
    show ofPix D s (fun n => e n * r) (n + s * D.N) / r = _
    rw [show ofPix D s (fun n => e n * r) (n + s * D.N) = e n * r from h4]
    field_simp
  have hd : lsDat D (fun _ => 0) reg1 (fun _ => 0) s = 0 := by
    unfold lsDat
    funext j
    rcases j with j | j
    · rfl
    · show Real.sqrt reg1 * 0 = 0
      rw [mul_zero]
  rw [hp, hd] at h3
  have h4 : out k (i + s * D.N) = r * ((Lw.step (lsOp r reg1 D g s) 0 reg0)^[k] e) i := h3
  rw [h4]
  field_simp

/-! ## `grad` and `tikh` -/

theorem grad_extra (D : Dims) : ∀ rc gr : Mem ℝ, ∀ s < D.dy, ∀ n < D.N,
    (fun _ gr => gr : Mem ℝ → Mem ℝ → Mem ℝ) rc gr (n + s * D.N) = gr (n + s * D.N) +
      2 * 0 * (rc (n + s * D.N) - 0) := by
  intro rc gr s _ n _
  ring

theorem tikh_extra {D : Dims} {ngx ngy : Nat} (hN : D.N = ngx * ngy) (reg1 : ℝ) (regData : Mem ℝ) :
    ∀ rc gr : Mem ℝ, ∀ s < D.dy, ∀ n < D.N,
    (fun rc gr => forPix D.dy ngx ngy (fun _ x v => v + 2 * reg1 * (rc x - regData x)) gr :
      Mem ℝ → Mem ℝ → Mem ℝ) rc gr (n + s * D.N) = gr (n + s * D.N) +
      2 * reg1 * (rc (n + s * D.N) - regData (n + s * D.N)) := by
  intro rc gr s hs n hn
  exact forPix_pixel hN _ _ hs hn

/-- **C151**: with a short step the results of `grad` converge to the least squares solution nearest
to the initial image. -/
theorem grad_converges {D : Dims} {ngx ngy : Nat} (hN : D.N = ngx * ngy) {g : Geom ℝ} (hg : GeomOk D g)
    {reg0 : ℝ} (h0 : 0 < reg0) (hD : ¬ (D.dy = 0 ∨ D.dt = 0 ∨ D.dx = 0))
    (hs : ShortStep reg0 (gradScale D) 0 D g) (data recon : Mem ℝ) :
    ∃ (out : ℕ → Mem ℝ) (u : Mem ℝ), (∀ k, grad D ngx ngy g data k (gradScale D) reg0 recon = some (out k)) ∧
      ∀ s < D.dy, (∀ n < D.N, Tendsto (fun k => out k (n + s * D.N)) atTop (𝓝 (u (n + s * D.N)))) ∧
        (∀ u', resSq D g data s u ≤ resSq D g data s u') ∧
        ∀ u', resSq D g data s u' = resSq D g data s u →
          pixSq D s (fun i => u i - recon i) ≤ pixSq D s (fun i => u' i - recon i) := by
  obtain ⟨out, u, h, h'⟩ := gradRun_converges hN hg (gradScale_pos hD) h0 (le_refl 0) hD
    (regData := fun _ => 0) (grad_extra D) hs data recon
  refine ⟨out, u, h, fun s hsd => ?_⟩
  have := h' s hsd
  simp only [lsEnergy, zero_mul, add_zero] at this
  exact this

/-- **C151**: the results of `grad` converge for all data and initial images exactly if the step is
short. -/
theorem grad_converges_iff {D : Dims} {ngx ngy : Nat} (hN : D.N = ngx * ngy) {g : Geom ℝ} (hg : GeomOk D g)
    {reg0 : ℝ} (h0 : 0 < reg0) (hD : ¬ (D.dy = 0 ∨ D.dt = 0 ∨ D.dx = 0)) :
    (∀ data recon, ∃ (out : ℕ → Mem ℝ) (u : Mem ℝ),
      (∀ k, grad D ngx ngy g data k (gradScale D) reg0 recon = some (out k)) ∧
      ∀ s < D.dy, ∀ n < D.N, Tendsto (fun k => out k (n + s * D.N)) atTop (𝓝 (u (n + s * D.N)))) ↔
    ShortStep reg0 (gradScale D) 0 D g := by
  constructor
  · intro h
    by_contra hs
    obtain ⟨recon, out, hout, s, hsd, n, hn, hno⟩ := gradRun_not_converges hN hg (gradScale_pos hD) h0
      (le_refl 0) hD (grad_extra D) hs
    obtain ⟨out', u, hout', hu⟩ := h (fun _ => 0) recon
    have e : out' = out := funext fun k => Option.some.inj ((hout' k).symm.trans (hout k))
    exact hno _ (e ▸ hu s hsd n hn)
  · intro hs data recon
    obtain ⟨out, u, h1, h2⟩ := grad_converges hN hg h0 hD hs data recon
    exact ⟨out, u, h1, fun s hsd => (h2 s hsd).1⟩

/-- **C151**: with a short step the results of `tikh` converge to the minimiser of its functional
nearest to the initial image. -/
theorem tikh_converges {D : Dims} {ngx ngy : Nat} (hN : D.N = ngx * ngy) {g : Geom ℝ} (hg : GeomOk D g)
    {reg0 reg1 : ℝ} (h0 : 0 < reg0) (h1 : 0 ≤ reg1) (hD : ¬ (D.dy = 0 ∨ D.dt = 0 ∨ D.dx = 0))
    (hs : ShortStep reg0 (gradScale D) reg1 D g) (data regData recon : Mem ℝ) :
    ∃ (out : ℕ → Mem ℝ) (u : Mem ℝ),
      (∀ k, tikh D ngx ngy g data k (gradScale D) reg0 reg1 regData recon = some (out k)) ∧
      ∀ s < D.dy, (∀ n < D.N, Tendsto (fun k => out k (n + s * D.N)) atTop (𝓝 (u (n + s * D.N)))) ∧
        (∀ u', lsEnergy D g data (gradScale D) reg1 regData s u ≤
          lsEnergy D g data (gradScale D) reg1 regData s u') ∧
        ∀ u', lsEnergy D g data (gradScale D) reg1 regData s u' =
            lsEnergy D g data (gradScale D) reg1 regData s u →
          pixSq D s (fun i => u i - recon i) ≤ pixSq D s (fun i => u' i - recon i) :=
  gradRun_converges hN hg (gradScale_pos hD) h0 h1 hD (tikh_extra hN reg1 regData) hs data recon

/-- **C151**: the results of `tikh` converge for all data, reference and initial images exactly if
the step is short. -/
theorem tikh_converges_iff {D : Dims} {ngx ngy : Nat} (hN : D.N = ngx * ngy) {g : Geom ℝ} (hg : GeomOk D g)
    {reg0 reg1 : ℝ} (h0 : 0 < reg0) (h1 : 0 ≤ reg1) (hD : ¬ (D.dy = 0 ∨ D.dt = 0 ∨ D.dx = 0)) :
    (∀ data regData recon, ∃ (out : ℕ → Mem ℝ) (u : Mem ℝ),
      (∀ k, tikh D ngx ngy g data k (gradScale D) reg0 reg1 regData recon = some (out k)) ∧
      ∀ s < D.dy, ∀ n < D.N, Tendsto (fun k => out k (n + s * D.N)) atTop (𝓝 (u (n + s * D.N)))) ↔
    ShortStep reg0 (gradScale D) reg1 D g := by
  constructor
  · intro h
    by_contra hs
    obtain ⟨recon, out, hout, s, hsd, n, hn, hno⟩ := gradRun_not_converges hN hg (gradScale_pos hD) h0
      h1 hD (tikh_extra hN reg1 fun _ => 0) hs
    obtain ⟨out', u, hout', hu⟩ := h (fun _ => 0) (fun _ => 0) recon
    have e : out' = out := funext fun k => Option.some.inj ((hout' k).symm.trans (hout k))
    exact hno _ (e ▸ hu s hsd n hn)
  · intro hs data regData recon
    obtain ⟨out, u, h1, h2⟩ := tikh_converges hN hg h0 h1 hD hs data regData recon
    exact ⟨out, u, h1, fun s hsd => (h2 s hsd).1⟩

theorem gradScale_sq {D : Dims} (hD : ¬ (D.dy = 0 ∨ D.dt = 0 ∨ D.dx = 0)) :
    gradScale D ^ 2 = 2 / ((D.dx : ℝ) * D.dt) := by
  push Not at hD
  have h1 : (0 : ℝ) < D.dx := Nat.cast_pos.mpr (Nat.pos_of_ne_zero hD.2.2)
  have h2 : (0 : ℝ) < D.dt := Nat.cast_pos.mpr (Nat.pos_of_ne_zero hD.2.1)
  unfold gradScale
  rw [div_pow, one_pow, Real.sq_sqrt (by positivity)]
  field_simp

/-- **C151**: a step `reg_par[0]` is not short if the mean of the squared lengths of the rays of a
slice times twice the step reaches the number of pixels of the slice. -/
theorem not_shortStep {D : Dims} {g : Geom ℝ} {reg0 : ℝ}
    (hD : ¬ (D.dy = 0 ∨ D.dt = 0 ∨ D.dx = 0)) (hN : D.N ≠ 0) {s : Nat} (hs : s < D.dy)
    (h : (D.N : ℝ) * (D.dx * D.dt) ≤ reg0 * (2 * ∑ p ∈ Finset.range D.dt, ∑ d ∈ Finset.range D.dx,
      (((g s p d).map fun e => e.2).sum) ^ 2)) : ¬ ShortStep reg0 (gradScale D) 0 D g := by
  intro hs'
  have hu := hs' s hs (fun _ => 1)
  have e1 : pixSq D s (fun _ => 1) = D.N := by unfold pixSq; simp
  have e2 : raySq D g s (fun _ => 1) = ∑ p ∈ Finset.range D.dt, ∑ d ∈ Finset.range D.dx,
      (((g s p d).map fun e => e.2).sum) ^ 2 := by
    unfold raySq lineSum
    simp only [one_mul]
  rw [e1, e2, gradScale_sq hD, zero_mul, add_zero] at hu
  have hlt := hu (Nat.cast_ne_zero.mpr hN)
  push Not at hD
  have h1 : (0 : ℝ) < D.dx := Nat.cast_pos.mpr (Nat.pos_of_ne_zero hD.2.2)
  have h2 : (0 : ℝ) < D.dt := Nat.cast_pos.mpr (Nat.pos_of_ne_zero hD.2.1)
  have h3 : (0 : ℝ) < D.dx * D.dt := mul_pos h1 h2
  rw [show ∀ S : ℝ, reg0 * (2 / ((D.dx : ℝ) * D.dt) * S) = reg0 * (2 * S) / (D.dx * D.dt) from
    fun S => by ring, div_lt_iff₀ h3] at hlt
  linarith

/-- **C151**: a step is short if it is below the inverse of `r²` times the largest ray length times
the largest total length of all rays in one pixel, plus `reg_par[1]`. -/
theorem shortStep_of_lengths {D : Dims} {g : Geom ℝ} (hg : GeomOk D g) {reg0 reg1 A B : ℝ} (h0 : 0 < reg0)
    (hD : ¬ (D.dy = 0 ∨ D.dt = 0 ∨ D.dx = 0)) (hA0 : 0 ≤ A)
    (hA : ∀ s < D.dy, ∀ p < D.dt, ∀ d < D.dx, ∑ n ∈ Finset.range D.N, lenIn (g s p d) n ≤ A)
    (hB : ∀ s < D.dy, ∀ n < D.N, ∑ p ∈ Finset.range D.dt, ∑ d ∈ Finset.range D.dx, lenIn (g s p d) n ≤ B)
    (h : reg0 * (2 / ((D.dx : ℝ) * D.dt) * (A * B) + reg1) < 1) : ShortStep reg0 (gradScale D) reg1 D g := by
  intro s hs u hu
  have hpos : 0 < pixSq D s u := lt_of_le_of_ne (Finset.sum_nonneg fun _ _ => sq_nonneg _) (Ne.symm hu)
  have hl : ∀ p < D.dt, ∀ d < D.dx, ∀ n, 0 ≤ lenIn (g s p d) n := by
    intro p hp d hd n
    unfold lenIn
    apply List.sum_nonneg
    intro x hx
    obtain ⟨e, he, rfl⟩ := List.mem_map.mp hx
    split
    · exact (hg s hs p hp d hd e he).2
    · exact le_refl _
  have hray : raySq D g s u ≤ A * B * pixSq D s u := by
    have hone : ∀ p < D.dt, ∀ d < D.dx, lineSum D.N s (g s p d) u ^ 2 ≤
        A * ∑ n ∈ Finset.range D.N, lenIn (g s p d) n * u (n + s * D.N) ^ 2 := by
      intro p hp d hd
      rw [lineSum_eq_sum_lenIn (fun e he => (hg s hs p hp d hd e he).1)]
      have hc := Finset.sum_sq_le_sum_mul_sum_of_sq_le_mul (Finset.range D.N)
        (r := fun n => u (n + s * D.N) * lenIn (g s p d) n) (f := fun n => lenIn (g s p d) n)
        (g := fun n => lenIn (g s p d) n * u (n + s * D.N) ^ 2)
        (fun n _ => hl p hp d hd n) (fun n _ => mul_nonneg (hl p hp d hd n) (sq_nonneg _))
        (fun n _ => le_of_eq (by ring))
      refine hc.trans (mul_le_mul_of_nonneg_right (hA s hs p hp d hd) ?_)
      exact Finset.sum_nonneg fun n _ => mul_nonneg (hl p hp d hd n) (sq_nonneg _)
    calc raySq D g s u ≤ ∑ p ∈ Finset.range D.dt, ∑ d ∈ Finset.range D.dx,
          A * ∑ n ∈ Finset.range D.N, lenIn (g s p d) n * u (n + s * D.N) ^ 2 :=
        Finset.sum_le_sum fun p hp => Finset.sum_le_sum fun d hd =>
          hone p (Finset.mem_range.mp hp) d (Finset.mem_range.mp hd)
      _ = A * ∑ n ∈ Finset.range D.N, (∑ p ∈ Finset.range D.dt, ∑ d ∈ Finset.range D.dx,
          lenIn (g s p d) n) * u (n + s * D.N) ^ 2 := by
        simp only [← Finset.mul_sum]
        congr 1
        have : ∀ p, ∑ d ∈ Finset.range D.dx, ∑ n ∈ Finset.range D.N, lenIn (g s p d) n * u (n + s * D.N) ^ 2 =
            ∑ n ∈ Finset.range D.N, ∑ d ∈ Finset.range D.dx, lenIn (g s p d) n * u (n + s * D.N) ^ 2 :=
          fun p => Finset.sum_comm
        simp only [this]
        rw [Finset.sum_comm]
        apply Finset.sum_congr rfl
        intro n _
        simp only [Finset.sum_mul]
      _ ≤ A * ∑ n ∈ Finset.range D.N, B * u (n + s * D.N) ^ 2 := by
        apply mul_le_mul_of_nonneg_left _ hA0
        exact Finset.sum_le_sum fun n hn =>
          mul_le_mul_of_nonneg_right (hB s hs n (Finset.mem_range.mp hn)) (sq_nonneg _)
      _ = A * B * pixSq D s u := by
        rw [← Finset.mul_sum]
        unfold pixSq
        ring
  rw [gradScale_sq hD]
  push Not at hD
  have hx : (0 : ℝ) < D.dx := Nat.cast_pos.mpr (Nat.pos_of_ne_zero hD.2.2)
  have ht : (0 : ℝ) < D.dt := Nat.cast_pos.mpr (Nat.pos_of_ne_zero hD.2.1)
  have hq : (0 : ℝ) ≤ 2 / ((D.dx : ℝ) * D.dt) := by positivity
  have h2 := mul_le_mul_of_nonneg_left hray hq
  calc reg0 * (2 / ((D.dx : ℝ) * D.dt) * raySq D g s u + reg1 * pixSq D s u)
      ≤ reg0 * (2 / ((D.dx : ℝ) * D.dt) * (A * B * pixSq D s u) + reg1 * pixSq D s u) := by
        apply mul_le_mul_of_nonneg_left _ h0.le
        linarith
    _ = reg0 * (2 / ((D.dx : ℝ) * D.dt) * (A * B) + reg1) * pixSq D s u := by ring
    _ < 1 * pixSq D s u := mul_lt_mul_of_pos_right h hpos
    _ = pixSq D s u := one_mul _

/-! ## The hypotheses can be met -/

/-- Two rays of unit length in a row of two pixels, one per pixel. -/
def unitG : Geom ℝ := fun _ _ d => [(d, 1)]

theorem unitG_ok : GeomOk ⟨1, 1, 2, 2⟩ unitG := by
  intro s _ p _ d hd e he
  simp only [unitG, List.mem_singleton] at he
  subst he
  exact ⟨hd, zero_le_one⟩

theorem unitG_short {τ reg1 : ℝ} (h0 : 0 < τ) (h : τ * (1 + reg1) < 1) :
    ShortStep τ (gradScale ⟨1, 1, 2, 2⟩) reg1 ⟨1, 1, 2, 2⟩ unitG := by
  apply shortStep_of_lengths unitG_ok h0 (by simp) zero_le_one (B := 1) (A := 1)
  · intro s _ p _ d hd
    have : d = 0 ∨ d = 1 := by change d < 2 at hd; omega
    rcases this with rfl | rfl <;> simp [lenIn, unitG]
  · intro s _ n hn
    have : n = 0 ∨ n = 1 := by change n < 2 at hn; omega
    rcases this with rfl | rfl <;> simp [lenIn, unitG]
  · norm_num
    linarith

example : ∃ (out : ℕ → Mem ℝ) (u : Mem ℝ), (∀ k, tikh ⟨1, 1, 2, 2⟩ 2 1 unitG (fun i => 3 + i) k
      (gradScale ⟨1, 1, 2, 2⟩) (1 / 4) 2 (fun _ => 1) (fun _ => 7) = some (out k)) ∧
    ∀ s < 1, (∀ n < 2, Tendsto (fun k => out k (n + s * 2)) atTop (𝓝 (u (n + s * 2)))) ∧
      (∀ u', lsEnergy ⟨1, 1, 2, 2⟩ unitG (fun i => 3 + i) (gradScale ⟨1, 1, 2, 2⟩) 2 (fun _ => 1) s u ≤
        lsEnergy ⟨1, 1, 2, 2⟩ unitG (fun i => 3 + i) (gradScale ⟨1, 1, 2, 2⟩) 2 (fun _ => 1) s u') := by
  obtain ⟨out, u, h1, h2⟩ := tikh_converges (D := ⟨1, 1, 2, 2⟩) (ngx := 2) (ngy := 1) rfl unitG_ok
    (reg0 := 1 / 4) (reg1 := 2) (by norm_num) (by norm_num) (by simp)
    (unitG_short (by norm_num) (by norm_num)) (fun i => 3 + i) (fun _ => 1) (fun _ => 7)
  exact ⟨out, u, h1, fun s hs => ⟨(h2 s hs).1, (h2 s hs).2.1⟩⟩

/-- With the default `reg_par` of ones the step is too long already for a row of two pixels. -/
theorem unitG_default_not_short : ¬ ShortStep 1 (gradScale ⟨1, 1, 2, 2⟩) 0 ⟨1, 1, 2, 2⟩ unitG := by
  apply not_shortStep (by simp) (by norm_num) (show 0 < 1 by norm_num)
  simp [unitG]

example : ¬ ∀ data recon, ∃ (out : ℕ → Mem ℝ) (u : Mem ℝ),
    (∀ k, grad ⟨1, 1, 2, 2⟩ 2 1 unitG data k (gradScale ⟨1, 1, 2, 2⟩) 1 recon = some (out k)) ∧
    ∀ s < 1, ∀ n < 2, Tendsto (fun k => out k (n + s * 2)) atTop (𝓝 (u (n + s * 2))) := fun h =>
  unitG_default_not_short ((grad_converges_iff (D := ⟨1, 1, 2, 2⟩) (ngx := 2) (ngy := 1) rfl unitG_ok
    one_pos (by simp)).mp h)

end Tomopy.Iter
