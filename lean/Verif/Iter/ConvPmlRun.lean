import Verif.Iter.ConvPml

/-!
# The iterations of the penalised methods (C141)
-/

set_option linter.unusedSectionVars false

namespace Tomopy.Iter

open Filter Topology

/-! ## One iteration -/

/-- The pull of the neighbours on pixel `j` of slice `s`. -/
noncomputable def pull (gv : ℝ → ℝ) (beta : ℝ) (ngx ngy N s : Nat) (r : Mem ℝ) (j : Nat) (y : ℝ) :
    ℝ :=
  ∑ k ∈ Finset.range N, 2 * beta * gridW ngx ngy j k * gv (r (j + s * N) - r (k + s * N)) *
    (2 * y - r (j + s * N) - r (k + s * N))

/-- The equation for the new value `y` of pixel `j`. -/
def StepEq (gv : ℝ → ℝ) (beta : ℝ) (D : Dims) (ngx ngy : Nat) (g : Geom ℝ) (data : Mem ℝ) (s : Nat)
    (r : Mem ℝ) (j : Nat) (y : ℝ) : Prop :=
  y * (∑ q ∈ hits D g s, lenIn (g s q.1 q.2) j + pull gv beta ngx ngy D.N s r j y) =
    r (j + s * D.N) * ∑ q ∈ hits D g s, data (D.data s q.1 q.2) /
      (∑ n ∈ Finset.range D.N, r (n + s * D.N) * lenIn (g s q.1 q.2) n) * lenIn (g s q.1 q.2) j

section One

variable {gam : ℝ → Option ℝ} {gv : ℝ → ℝ} {beta : ℝ} {D : Dims} {ngx ngy : Nat} {g : Geom ℝ}
  {data : Mem ℝ}

theorem pml_succ (hne : ¬ (D.dy = 0 ∨ D.dt = 0 ∨ D.dx = 0)) (k : Nat) (recon : Mem ℝ) :
    pml gam beta D ngx ngy g data (k + 1) recon =
      (pml gam beta D ngx ngy g data k recon).bind (pml gam beta D ngx ngy g data 1) := by
  have hpml : ∀ n r, pml gam beta D ngx ngy g data n r =
      iterM (osIter pmlMethod (pmlFin gam beta D ngx ngy) D g data [List.range D.dt]) n r := by
    intro n r
    unfold pml ospml osRun
    rw [if_neg hne, blocks_single]
    rfl
  rw [hpml, iterM_succ_last, ← hpml]
  congr 1
  funext r
  rw [hpml 1 r]
  simp [iterM]

/-- The equation of the block update in terms of the weights of the grid. -/
theorem stepEq_iff (hN : D.N = ngx * ngy) (hg : GeomOk D g) {s : Nat} (hs : s < D.dy) {r : Mem ℝ}
    {n m : Nat} (hn : n < ngx) (hm : m < ngy) (y : ℝ) :
    StepEq gv beta D ngx ngy g data s r (m + n * ngy) y ↔
      2 * specF gv beta ngx ngy (s * D.N) r n m * y ^ 2 +
        (subLen D g s (List.range D.dt) (m + n * ngy) -
          specG gv beta ngx ngy (s * D.N) r n m) * y +
        -(r (m + n * ngy + s * D.N) * subRatio D g data r s (List.range D.dt) (m + n * ngy)) = 0 := by
  have hF : specF gv beta ngx ngy (s * D.N) r n m = ∑ k ∈ Finset.range D.N,
      2 * beta * gridW ngx ngy (m + n * ngy) k *
        gv (r (m + n * ngy + s * D.N) - r (k + s * D.N)) := by
    unfold specF
    rw [nbMean_grid hn hm r (s * D.N) fun t => gv (r (m + n * ngy + s * D.N) - t), Finset.mul_sum,
      ← hN]
    exact Finset.sum_congr rfl fun k _ => by ring
  have hG : specG gv beta ngx ngy (s * D.N) r n m = ∑ k ∈ Finset.range D.N,
      2 * beta * gridW ngx ngy (m + n * ngy) k *
        gv (r (m + n * ngy + s * D.N) - r (k + s * D.N)) *
        (r (m + n * ngy + s * D.N) + r (k + s * D.N)) := by
    unfold specG
    rw [nbMean_grid hn hm r (s * D.N) fun t => gv (r (m + n * ngy + s * D.N) - t) *
      (r (m + n * ngy + s * D.N) + t), Finset.mul_sum, ← hN]
    exact Finset.sum_congr rfl fun k _ => by ring
  have hP : pull gv beta ngx ngy D.N s r (m + n * ngy) y =
      2 * specF gv beta ngx ngy (s * D.N) r n m * y - specG gv beta ngx ngy (s * D.N) r n m := by
    rw [hF, hG]
    unfold pull
    rw [Finset.mul_sum, Finset.sum_mul, ← Finset.sum_sub_distrib]
    exact Finset.sum_congr rfl fun k _ => by ring
  have hL : subLen D g s (List.range D.dt) (m + n * ngy) =
      ∑ q ∈ hits D g s, lenIn (g s q.1 q.2) (m + n * ngy) := sens_eq s _
  have hR : subRatio D g data r s (List.range D.dt) (m + n * ngy) =
      ∑ q ∈ hits D g s, data (D.data s q.1 q.2) /
        (∑ n ∈ Finset.range D.N, r (n + s * D.N) * lenIn (g s q.1 q.2) n) *
        lenIn (g s q.1 q.2) (m + n * ngy) := by
    unfold subRatio
    rw [sum_hits]
    refine Finset.sum_congr rfl fun q hq => ?_
    have hm := mem_hits.mp hq
    rw [lineSum_eq_sum_lenIn fun e he => (hg s hs _ hm.1.1 _ hm.1.2 e he).1]
  unfold StepEq
  rw [hP, ← hL, ← hR]
  constructor <;> intro h <;> linear_combination h

/-- One iteration of `pml_*` from a positive image: the new value of every pixel is the only
positive solution of its equation. -/
theorem pml_one (hgam : ∀ x, gam x = some (gv x)) (hgv : ∀ x, 0 < gv x) (hb : 0 < beta)
    (hN : D.N = ngx * ngy) (hx : 2 ≤ ngx) (hy : 2 ≤ ngy) (hdt : 0 < D.dt) (hdx : 0 < D.dx)
    (hg : GeomOk D g) (hd : PosData D data) {r : Mem ℝ} (hr : PosImage D r) :
    ∃ r', pml gam beta D ngx ngy g data 1 r = some r' ∧ PosImage D r' ∧
      ∀ s < D.dy, ∀ j < D.N, ∀ y, 0 < y →
        (StepEq gv beta D ngx ngy g data s r j y ↔ y = r' (j + s * D.N)) := by
  by_cases hne : D.dy = 0 ∨ D.dt = 0 ∨ D.dx = 0
  · have h0 : D.dy = 0 := by omega
    refine ⟨r, by unfold pml ospml osRun; rw [if_pos hne], hr, fun s hs => ?_⟩
    omega
  have hps : ∀ p ∈ List.range D.dt, p < D.dt := fun p hp => List.mem_range.mp hp
  have hpml : pml gam beta D ngx ngy g data 1 r =
      osIter pmlMethod (pmlFin gam beta D ngx ngy) D g data [List.range D.dt] r := by
    unfold pml ospml osRun
    rw [if_neg hne, blocks_single]
    simp [iterM]
  rw [hpml, osIter_pure (pmlFin_ok gam beta D ngx ngy) (blocksOk_single D)]
  have key : ∀ m ≤ D.dy, ∃ r', (List.range m).foldlM (fun r s => [List.range D.dt].foldlM
      (fun r ps => pureBlock pmlMethod (pmlFin gam beta D ngx ngy) D g data s ps r) r) r = some r' ∧
      PosImage D r' ∧ (∀ x, m * D.N ≤ x → r' x = r x) ∧ ∀ s < m, ∀ j < D.N, ∀ y, 0 < y →
        (StepEq gv beta D ngx ngy g data s r j y ↔ y = r' (j + s * D.N)) := by
    intro m
    induction m with
    | zero => intro _; exact ⟨r, rfl, hr, fun _ _ => rfl, by simp⟩
    | succ m ih =>
      intro hm
      obtain ⟨r2, h2, hp2, hf2, hc2⟩ := ih (by omega)
      obtain ⟨r3, h3, hp3⟩ := ospml_block_pos (g := g) hgam hgv hb hN hx hy hg hd (s := m) (by omega)
        List.nodup_range hps hp2
      have hsim : ∀ p ∈ List.range D.dt, ∀ d < D.dx, sumDist2 (g m p d) ≠ 0 →
          lineSum D.N m (g m p d) r2 ≠ 0 := fun p hp d hdx h =>
        (lineSum_pos (hg m (by omega) p (hps p hp) d hdx) (hp2 m (by omega)) h).ne'
      obtain ⟨r3', h3', he3, hf3⟩ := ospml_block (g := g) hgam hgv hb hN hx hy hg (s := m)
        (by omega) List.nodup_range hps (data := data)
        (fun p hp d hdx => (hd m (by omega) p (hps p hp) d hdx).le)
        (fun n hn => (hp2 m (by omega) n hn).le) hsim
      rw [h3, Option.some.injEq] at h3'
      subst h3'
      have hcur : ∀ n < D.N, r2 (n + m * D.N) = r (n + m * D.N) := fun n _ => hf2 _ (by omega)
      refine ⟨r3, ?_, hp3, ?_, ?_⟩
      · rw [List.range_succ, List.foldlM_append, h2]
        show (some r2).bind (fun r => [m].foldlM _ r) = some r3
        simp only [Option.bind_some, List.foldlM_cons, List.foldlM_nil, h3]
        rfl
      · intro x hx
        rw [Nat.succ_mul] at hx
        rw [hf3 x (by omega), hf2 x (by omega)]
      · intro s hs j hj y hy0
        by_cases e : s = m
        · subst e
          have hsame : StepEq gv beta D ngx ngy g data s r j y ↔
              StepEq gv beta D ngx ngy g data s r2 j y := by
            unfold StepEq pull
            have e1 : ∀ q : Nat × Nat,
                ∑ n ∈ Finset.range D.N, r2 (n + s * D.N) * lenIn (g s q.1 q.2) n =
                ∑ n ∈ Finset.range D.N, r (n + s * D.N) * lenIn (g s q.1 q.2) n := fun q =>
              Finset.sum_congr rfl fun n hn => by rw [hcur n (Finset.mem_range.mp hn)]
            have e2 : ∑ k ∈ Finset.range D.N, 2 * beta * gridW ngx ngy j k *
                gv (r2 (j + s * D.N) - r2 (k + s * D.N)) *
                (2 * y - r2 (j + s * D.N) - r2 (k + s * D.N)) =
              ∑ k ∈ Finset.range D.N, 2 * beta * gridW ngx ngy j k *
                gv (r (j + s * D.N) - r (k + s * D.N)) *
                (2 * y - r (j + s * D.N) - r (k + s * D.N)) :=
              Finset.sum_congr rfl fun k hk => by
                rw [hcur k (Finset.mem_range.mp hk), hcur j hj]
            rw [e2]
            simp only [e1, hcur j hj]
          rw [hsame]
          obtain ⟨n, hn, m', hm', rfl⟩ := exists_pix (hN ▸ hj)
          rw [stepEq_iff hN hg (by omega) hn hm']
          obtain ⟨-, a2, a3, -⟩ := he3 n hn m' hm' _ _ _ rfl rfl rfl
          exact ⟨a3 y hy0, fun e => e ▸ a2⟩
        · have hfr : r3 (j + s * D.N) = r2 (j + s * D.N) := hf3 _ (other_slice hj e)
          rw [hfr]
          exact hc2 s (by omega) j hj y hy0
  obtain ⟨r', h1, h2, -, h4⟩ := key D.dy (le_refl _)
  exact ⟨r', h1, h2, h4⟩

/-! ## Symmetric weights -/

/-- **C141** (partial: one iteration, symmetric weights): the penalised likelihood of every slice
grows by at least the weighted square of the change. -/
theorem pml_gain_step_partial {phi : ℝ → ℝ} (hgam : ∀ x, gam x = some (gv x))
    (hp : Potential phi gv) (hb : 0 < beta)
    (hN : D.N = ngx * ngy) (hx : 2 ≤ ngx) (hy : 2 ≤ ngy) (hsym : SymGrid ngx ngy)
    (hdt : 0 < D.dt) (hdx : 0 < D.dx) (hg : GeomOk D g) (hd : PosData D data) {r : Mem ℝ}
    (hr : PosImage D r) :
    ∃ r', pml gam beta D ngx ngy g data 1 r = some r' ∧ PosImage D r' ∧ ∀ s < D.dy,
      penLik phi beta D ngx ngy g data s r + ∑ j ∈ Finset.range D.N,
        (∑ k ∈ Finset.range D.N, 2 * beta * gridW ngx ngy j k *
          gv (r (j + s * D.N) - r (k + s * D.N))) * (r' (j + s * D.N) - r (j + s * D.N)) ^ 2 ≤
        penLik phi beta D ngx ngy g data s r' := by
  obtain ⟨r', h1, h2, h3⟩ := pml_one hgam hp.pos hb hN hx hy hdt hdx hg hd hr
  refine ⟨r', h1, h2, fun s hs => ?_⟩
  have hlen : ∀ q ∈ hits D g s, ∀ n < D.N, 0 ≤ lenIn (g s q.1 q.2) n := fun q hq n _ =>
    have hm := mem_hits.mp hq
    lenIn_nonneg (hg s hs _ hm.1.1 _ hm.1.2) n
  have hw : ∀ n k, 0 ≤ 2 * beta * gridW ngx ngy n k *
      gv (r (n + s * D.N) - r (k + s * D.N)) := fun n k =>
    mul_nonneg (mul_nonneg (by linarith) (gridW_nonneg _ _ _ _)) (hp.pos _).le
  have hgain := pml_gain (hits D g s) D.N (fun q n => lenIn (g s q.1 q.2) n)
    (fun q => data (D.data s q.1 q.2)) (fun n => r (n + s * D.N)) (fun n => r' (n + s * D.N))
    (fun n k => 2 * beta * gridW ngx ngy n k * gv (r (n + s * D.N) - r (k + s * D.N)))
    hlen (fun q hq => have hm := mem_hits.mp hq; hd s hs _ hm.1.1 _ hm.1.2)
    (hr s hs) (h2 s hs) (line_pos hg hs hr) (line_pos hg hs h2) (fun n _ k _ => hw n k)
    (fun n hn k hk => by
      rw [hsym n (hN ▸ hn) k (hN ▸ hk), ← hp.even, neg_sub])
    (fun n hn => ((h3 s hs n hn _ (h2 s hs n hn)).mpr rfl))
  rw [← logLik_eq hg hs, ← logLik_eq hg hs] at hgain
  have hpen : beta / 2 * ∑ j ∈ Finset.range D.N, ∑ k ∈ Finset.range D.N,
        gridW ngx ngy j k * phi (r' (j + s * D.N) - r' (k + s * D.N)) -
      beta / 2 * ∑ j ∈ Finset.range D.N, ∑ k ∈ Finset.range D.N,
        gridW ngx ngy j k * phi (r (j + s * D.N) - r (k + s * D.N)) ≤
      1 / 4 * ∑ n ∈ Finset.range D.N, ∑ k ∈ Finset.range D.N, 2 * beta * gridW ngx ngy n k *
        gv (r (n + s * D.N) - r (k + s * D.N)) * (r' (n + s * D.N) - r' (k + s * D.N)) ^ 2 -
      1 / 4 * ∑ n ∈ Finset.range D.N, ∑ k ∈ Finset.range D.N, 2 * beta * gridW ngx ngy n k *
        gv (r (n + s * D.N) - r (k + s * D.N)) * (r (n + s * D.N) - r (k + s * D.N)) ^ 2 := by
    simp only [Finset.mul_sum]
    rw [← Finset.sum_sub_distrib, ← Finset.sum_sub_distrib]
    refine Finset.sum_le_sum fun n _ => ?_
    rw [← Finset.sum_sub_distrib, ← Finset.sum_sub_distrib]
    refine Finset.sum_le_sum fun k _ => ?_
    have h := mul_le_mul_of_nonneg_left (hp.below (r' (n + s * D.N) - r' (k + s * D.N))
      (r (n + s * D.N) - r (k + s * D.N)))
      (show 0 ≤ beta / 2 * gridW ngx ngy n k from
        mul_nonneg (by linarith) (gridW_nonneg _ _ _ _))
    linarith
  unfold penLik
  linarith

theorem weight_pos {phi : ℝ → ℝ} (hp : Potential phi gv) (hb : 0 < beta) (hN : D.N = ngx * ngy)
    (hx : 2 ≤ ngx) {j : Nat} (hj : j < D.N) (s : Nat) (r : Mem ℝ) :
    0 < ∑ k ∈ Finset.range D.N, 2 * beta * gridW ngx ngy j k *
      gv (r (j + s * D.N) - r (k + s * D.N)) := by
  have h1 := gridW_sum (ngy := ngy) hx (hN ▸ hj)
  have hn : ∀ k ∈ Finset.range D.N, 0 ≤ 2 * beta * gridW ngx ngy j k *
      gv (r (j + s * D.N) - r (k + s * D.N)) := fun k _ =>
    mul_nonneg (mul_nonneg (by linarith) (gridW_nonneg _ _ _ _)) (hp.pos _).le
  refine lt_of_le_of_ne (Finset.sum_nonneg hn) fun h => ?_
  have h0 := (Finset.sum_eq_zero_iff_of_nonneg hn).mp h.symm
  have : ∑ k ∈ Finset.range (ngx * ngy), gridW ngx ngy j k = 0 := by
    refine Finset.sum_eq_zero fun k hk => ?_
    have := h0 k (hN ▸ hk)
    rcases mul_eq_zero.mp this with h | h
    · rcases mul_eq_zero.mp h with h | h
      · linarith
      · exact h
    · exact absurd h (hp.pos _).ne'
  linarith

/-- **C141** (partial: symmetric weights): an iteration never lowers the penalised likelihood, and
leaves it the same only if it leaves the slice the same. -/
theorem pml_likelihood_step_partial {phi : ℝ → ℝ} (hgam : ∀ x, gam x = some (gv x))
    (hp : Potential phi gv) (hb : 0 < beta)
    (hN : D.N = ngx * ngy) (hx : 2 ≤ ngx) (hy : 2 ≤ ngy) (hsym : SymGrid ngx ngy)
    (hdt : 0 < D.dt) (hdx : 0 < D.dx) (hg : GeomOk D g) (hd : PosData D data) {r : Mem ℝ}
    (hr : PosImage D r) :
    ∃ r', pml gam beta D ngx ngy g data 1 r = some r' ∧ PosImage D r' ∧ ∀ s < D.dy,
      penLik phi beta D ngx ngy g data s r ≤ penLik phi beta D ngx ngy g data s r' ∧
      (penLik phi beta D ngx ngy g data s r' = penLik phi beta D ngx ngy g data s r →
        ∀ j < D.N, r' (j + s * D.N) = r (j + s * D.N)) := by
  obtain ⟨r', h1, h2, h3⟩ := pml_gain_step_partial hgam hp hb hN hx hy hsym hdt hdx hg hd hr
  refine ⟨r', h1, h2, fun s hs => ?_⟩
  have h4 := h3 s hs
  have hn : ∀ j ∈ Finset.range D.N, 0 ≤ (∑ k ∈ Finset.range D.N, 2 * beta * gridW ngx ngy j k *
      gv (r (j + s * D.N) - r (k + s * D.N))) * (r' (j + s * D.N) - r (j + s * D.N)) ^ 2 :=
    fun j hj => mul_nonneg (weight_pos hp hb hN hx (Finset.mem_range.mp hj) s r).le (sq_nonneg _)
  have h5 := Finset.sum_nonneg hn
  refine ⟨by linarith, fun heq j hj => ?_⟩
  have h0 := (Finset.sum_eq_zero_iff_of_nonneg hn).mp (le_antisymm (by linarith) h5) j
    (Finset.mem_range.mpr hj)
  rcases mul_eq_zero.mp h0 with h | h
  · exact absurd h (weight_pos hp hb hN hx hj s r).ne'
  · have := pow_eq_zero_iff (two_ne_zero) |>.mp h
    linarith

/-- **C141** (partial: symmetric weights): more iterations never lower the penalised likelihood. -/
theorem pml_likelihood_partial {phi : ℝ → ℝ} (hgam : ∀ x, gam x = some (gv x))
    (hp : Potential phi gv) (hb : 0 < beta)
    (hN : D.N = ngx * ngy) (hx : 2 ≤ ngx) (hy : 2 ≤ ngy) (hsym : SymGrid ngx ngy)
    (hdy : 0 < D.dy) (hdt : 0 < D.dt) (hdx : 0 < D.dx) (hg : GeomOk D g) (hd : PosData D data)
    {recon : Mem ℝ} (hr : PosImage D recon) {k l : Nat} (hkl : k ≤ l) :
    ∃ r r', pml gam beta D ngx ngy g data k recon = some r ∧ PosImage D r ∧
      pml gam beta D ngx ngy g data l recon = some r' ∧ PosImage D r' ∧
      ∀ s < D.dy, penLik phi beta D ngx ngy g data s r ≤ penLik phi beta D ngx ngy g data s r' := by
  have hdef : ∀ n, ∃ r', pml gam beta D ngx ngy g data n recon = some r' ∧ PosImage D r' :=
    fun n => ospml_positive hgam hp.pos hb hN hx hy hg hd (Or.inl rfl) hr
  induction l, hkl using Nat.le_induction with
  | base =>
    obtain ⟨r, h, h2⟩ := hdef k
    exact ⟨r, r, h, h2, h, h2, fun _ _ => le_refl _⟩
  | succ l hkl ih =>
    obtain ⟨r, r1, h1, hp1, h2, hp2, h3⟩ := ih
    obtain ⟨r2, h5, hp5, h6⟩ :=
      pml_likelihood_step_partial hgam hp hb hN hx hy hsym hdt hdx hg hd hp2
    refine ⟨r, r2, h1, hp1, ?_, hp5, fun s hs => (h3 s hs).trans (h6 s hs).1⟩
    rw [pml_succ (by omega), h2, Option.bind_some, h5]

/-- **C141** (partial: symmetric weights): an iteration leaves a positive image unchanged exactly if
no positive image has a greater penalised likelihood in any slice. -/
theorem pml_fixed_iff_partial {phi : ℝ → ℝ} (hgam : ∀ x, gam x = some (gv x))
    (hp : Potential phi gv) (hb : 0 < beta)
    (hN : D.N = ngx * ngy) (hx : 2 ≤ ngx) (hy : 2 ≤ ngy) (hsym : SymGrid ngx ngy)
    (hdt : 0 < D.dt) (hdx : 0 < D.dx) (hg : GeomOk D g) (hd : PosData D data) {r : Mem ℝ}
    (hr : PosImage D r) :
    (∃ r', pml gam beta D ngx ngy g data 1 r = some r' ∧ SameImage D r' r) ↔
      ∀ y, PosImage D y → ∀ s < D.dy,
        penLik phi beta D ngx ngy g data s y ≤ penLik phi beta D ngx ngy g data s r := by
  constructor
  · rintro ⟨r', h1, hsame⟩ y hyp s hs
    obtain ⟨r1, h1', hp1, h3⟩ := pml_one hgam hp.pos hb hN hx hy hdt hdx hg hd hr
    rw [h1, Option.some.injEq] at h1'
    subst h1'
    have hfix := pml_fixed_max (hits D g s) D.N (fun q n => lenIn (g s q.1 q.2) n)
      (fun q => data (D.data s q.1 q.2)) (fun n => r (n + s * D.N)) (fun n => y (n + s * D.N))
      (fun n k => 2 * beta * gridW ngx ngy n k * gv (r (n + s * D.N) - r (k + s * D.N)))
      (fun q hq => have hm := mem_hits.mp hq; hd s hs _ hm.1.1 _ hm.1.2)
      (hr s hs) (line_pos hg hs hr) (line_pos hg hs hyp)
      (fun n hn k hk => by
        rw [hsym n (hN ▸ hn) k (hN ▸ hk), ← hp.even, neg_sub])
      (fun n hn => by
        have := (h3 s hs n hn _ (hr s hs n hn)).mpr (hsame s hs n hn).symm
        unfold StepEq pull at this
        rw [← this]
        congr 2
        exact Finset.sum_congr rfl fun k _ => by ring)
    rw [← logLik_eq hg hs, ← logLik_eq hg hs] at hfix
    have hpen : 1 / 2 * (∑ n ∈ Finset.range D.N, ∑ k ∈ Finset.range D.N,
        2 * beta * gridW ngx ngy n k * gv (r (n + s * D.N) - r (k + s * D.N)) *
          (r (n + s * D.N) - r (k + s * D.N)) *
          ((y (n + s * D.N) - y (k + s * D.N)) - (r (n + s * D.N) - r (k + s * D.N)))) ≤
        beta / 2 * ∑ j ∈ Finset.range D.N, ∑ k ∈ Finset.range D.N,
          gridW ngx ngy j k * phi (y (j + s * D.N) - y (k + s * D.N)) -
        beta / 2 * ∑ j ∈ Finset.range D.N, ∑ k ∈ Finset.range D.N,
          gridW ngx ngy j k * phi (r (j + s * D.N) - r (k + s * D.N)) := by
      simp only [Finset.mul_sum]
      rw [← Finset.sum_sub_distrib]
      refine Finset.sum_le_sum fun n _ => ?_
      rw [← Finset.sum_sub_distrib]
      refine Finset.sum_le_sum fun k _ => ?_
      have h := mul_le_mul_of_nonneg_left (hp.tangent (y (n + s * D.N) - y (k + s * D.N))
        (r (n + s * D.N) - r (k + s * D.N)))
        (show 0 ≤ beta / 2 * gridW ngx ngy n k from
          mul_nonneg (by linarith) (gridW_nonneg _ _ _ _))
      linarith
    unfold penLik
    linarith
  · intro h
    obtain ⟨r', h1, h2, h3⟩ := pml_likelihood_step_partial hgam hp hb hN hx hy hsym hdt hdx hg hd hr
    exact ⟨r', h1, fun s hs j hj =>
      (h3 s hs).2 (le_antisymm (h r' h2 s hs) (h3 s hs).1) j hj⟩

/-- The penalised likelihood is bounded. -/
theorem penLik_le {phi : ℝ → ℝ} (hp : Potential phi gv) (hb : 0 < beta) (hg : GeomOk D g)
    (hd : PosData D data) {s : Nat} (hs : s < D.dy) {r : Mem ℝ} (hr : PosImage D r) :
    penLik phi beta D ngx ngy g data s r ≤ ∑ q ∈ hits D g s,
      (data (D.data s q.1 q.2) * Real.log (data (D.data s q.1 q.2)) -
        data (D.data s q.1 q.2)) := by
  unfold penLik
  have h1 : 0 ≤ beta / 2 * ∑ j ∈ Finset.range D.N, ∑ k ∈ Finset.range D.N,
      gridW ngx ngy j k * phi (r (j + s * D.N) - r (k + s * D.N)) :=
    mul_nonneg (by linarith) (Finset.sum_nonneg fun j _ => Finset.sum_nonneg fun k _ =>
      mul_nonneg (gridW_nonneg _ _ _ _) (hp.nonneg _))
  have h2 : logLik D g data s r ≤ ∑ q ∈ hits D g s,
      (data (D.data s q.1 q.2) * Real.log (data (D.data s q.1 q.2)) -
        data (D.data s q.1 q.2)) := by
    rw [logLik_eq hg hs]
    refine Finset.sum_le_sum fun q hq => ?_
    have hA := line_pos hg hs hr q hq
    have hm := mem_hits.mp hq
    have hbq := hd s hs _ hm.1.1 _ hm.1.2
    have hl := Real.log_le_sub_one_of_pos (div_pos hA hbq)
    rw [Real.log_div hA.ne' hbq.ne'] at hl
    have h3 := mul_le_mul_of_nonneg_left hl hbq.le
    have e : ∀ c d : ℝ, 0 < d → d * (c / d - 1) = c - d := fun c d hd => by field_simp
    rw [e _ _ hbq] at h3
    linarith
  linarith

/-- **C141** (partial: symmetric weights): the changes made by `pml_quad` tend to zero. -/
theorem pml_quad_steps_partial (hb : 0 < beta) (hN : D.N = ngx * ngy) (hx : 2 ≤ ngx) (hy : 2 ≤ ngy)
    (hsym : SymGrid ngx ngy) (hdy : 0 < D.dy) (hdt : 0 < D.dt) (hdx : 0 < D.dx) (hg : GeomOk D g)
    (hd : PosData D data) {recon : Mem ℝ} (hr : PosImage D recon) :
    ∃ x : Nat → Mem ℝ, (∀ k, pml gammaQuad beta D ngx ngy g data k recon = some (x k)) ∧
      ∀ s < D.dy, ∀ j < D.N,
        Tendsto (fun k => x (k + 1) (j + s * D.N) - x k (j + s * D.N)) atTop (𝓝 0) := by
  have hdef : ∀ n, ∃ r', pml gammaQuad beta D ngx ngy g data n recon = some r' ∧ PosImage D r' :=
    fun n => ospml_positive (gv := fun _ => 1) (fun _ => rfl) (fun _ => one_pos) hb hN hx hy hg hd
      (Or.inl rfl) hr
  choose x hx1 hx2 using hdef
  refine ⟨x, hx1, fun s hs j hj => ?_⟩
  have hgain : ∀ k, penLik (fun t => t ^ 2) beta D ngx ngy g data s (x k) +
      2 * beta * (x (k + 1) (j + s * D.N) - x k (j + s * D.N)) ^ 2 ≤
      penLik (fun t => t ^ 2) beta D ngx ngy g data s (x (k + 1)) := by
    intro k
    obtain ⟨r', h1, h2, h3⟩ := pml_gain_step_partial (gam := gammaQuad) (gv := fun _ => 1)
      (fun _ => rfl) potential_quad hb hN hx hy hsym hdt hdx hg hd (hx2 k)
    have hk : r' = x (k + 1) := by
      have := hx1 (k + 1)
      rw [pml_succ (by omega), hx1 k, Option.bind_some, h1, Option.some.injEq] at this
      exact this
    subst hk
    refine le_trans ?_ (h3 s hs)
    have hw : ∀ i < D.N, ∑ k ∈ Finset.range D.N, 2 * beta * gridW ngx ngy i k * (1 : ℝ) =
        2 * beta := by
      intro i hi
      simp only [mul_one]
      rw [← Finset.mul_sum, hN, gridW_sum hx (hN ▸ hi), mul_one]
    have := Finset.single_le_sum (f := fun i => (∑ k ∈ Finset.range D.N, 2 * beta *
      gridW ngx ngy i k * (1 : ℝ)) * (x (k + 1) (i + s * D.N) - x k (i + s * D.N)) ^ 2)
      (fun i hi => by
        rw [hw i (Finset.mem_range.mp hi)]
        exact mul_nonneg (by linarith) (sq_nonneg _)) (Finset.mem_range.mpr hj)
    rw [hw j hj] at this
    linarith
  have hmono : Monotone fun k => penLik (fun t => t ^ 2) beta D ngx ngy g data s (x k) :=
    monotone_nat_of_le_succ fun k => by
      have := hgain k
      have h2 : 0 ≤ 2 * beta * (x (k + 1) (j + s * D.N) - x k (j + s * D.N)) ^ 2 :=
        mul_nonneg (by linarith) (sq_nonneg _)
      linarith
  have hbdd : BddAbove (Set.range fun k => penLik (fun t => t ^ 2) beta D ngx ngy g data s (x k)) := by
    refine ⟨∑ q ∈ hits D g s, (data (D.data s q.1 q.2) * Real.log (data (D.data s q.1 q.2)) -
        data (D.data s q.1 q.2)), ?_⟩
    rintro _ ⟨k, rfl⟩
    exact penLik_le potential_quad hb hg hd hs (hx2 k)
  have hlim := tendsto_atTop_ciSup hmono hbdd
  have hdiff : Tendsto (fun k => penLik (fun t => t ^ 2) beta D ngx ngy g data s (x (k + 1)) -
      penLik (fun t => t ^ 2) beta D ngx ngy g data s (x k)) atTop (𝓝 0) := by
    have := (hlim.comp (tendsto_add_atTop_nat 1)).sub hlim
    simpa [Function.comp_def] using this
  have hsq : Tendsto (fun k => (x (k + 1) (j + s * D.N) - x k (j + s * D.N)) ^ 2) atTop (𝓝 0) := by
    have h2 := hdiff.div_const (2 * beta)
    rw [zero_div] at h2
    refine squeeze_zero (fun k => sq_nonneg _) (fun k => ?_) h2
    rw [le_div_iff₀ (by linarith)]
    have := hgain k
    linarith
  have h3 := hsq.sqrt
  rw [Real.sqrt_zero] at h3
  simp only [Real.sqrt_sq_eq_abs] at h3
  exact (tendsto_zero_iff_abs_tendsto_zero _).mpr h3

end One

end Tomopy.Iter
