import Verif.Iter.ConvSirt
import Verif.Iter.ConvMlem
import Verif.Iter.Landweber

/-!
# Exactly when `sirt` converges, and to what (C154)

`sirt` is gradient descent on the squared residuals, each divided by the sum of squares of the
lengths of its ray, in the norm that weights a pixel by the total length of all rays in it.
-/

set_option linter.unusedSectionVars false

namespace Tomopy.Iter

open Filter Topology Matrix

/-! ## Specifications -/

/-- The sum of the squared residuals of slice `s`, each divided by the sum of squares of the lengths
of its ray. -/
noncomputable def wres (D : Dims) (g : Geom ℝ) (data : Mem ℝ) (s : Nat) (u : Mem ℝ) : ℝ :=
  ((raysOf D.dx (List.range D.dt)).map fun q => if sumDist2 (g s q.1 q.2) ≠ 0 then
    (lineSum D.N s (g s q.1 q.2) u - data (D.data s q.1 q.2)) ^ 2 / sumDist2 (g s q.1 q.2) else 0).sum

/-- The weighted ray sums of every image of a slice are smaller than twice its weighted norm. -/
def SirtOk (D : Dims) (g : Geom ℝ) : Prop :=
  ∀ s < D.dy, ∀ u, wdist D g s u (fun _ => 0) ≠ 0 →
    wres D g (fun _ => 0) s u < 2 * wdist D g s u (fun _ => 0)

/-! ## `sirt` as gradient descent -/

section Real

variable {D : Dims} {g : Geom ℝ} {data : Mem ℝ}

/-- The pixels of slice `s` that some ray hits. -/
abbrev SeenIx (D : Dims) (g : Geom ℝ) (s : Nat) := {n : Fin D.N // sensitivity D g s n ≠ 0}

/-- The rays that hit slice `s`. -/
abbrev HitIx (D : Dims) (g : Geom ℝ) (s : Nat) := {q // q ∈ hits D g s}

/-- Scaled lengths. -/
noncomputable def siM (D : Dims) (g : Geom ℝ) (s : Nat) : Matrix (HitIx D g s) (SeenIx D g s) ℝ :=
  fun q n => lenIn (g s q.1.1 q.1.2) n.1 / (Real.sqrt (sumDist2 (g s q.1.1 q.1.2)) *
    Real.sqrt (sensitivity D g s n.1))

/-- Scaled data. -/
noncomputable def siB (D : Dims) (g : Geom ℝ) (data : Mem ℝ) (s : Nat) : HitIx D g s → ℝ :=
  fun q => data (D.data s q.1.1 q.1.2) / Real.sqrt (sumDist2 (g s q.1.1 q.1.2))

/-- Scaled pixels. -/
noncomputable def siX (D : Dims) (g : Geom ℝ) (s : Nat) (r : Mem ℝ) : SeenIx D g s → ℝ :=
  fun n => Real.sqrt (sensitivity D g s n.1) * r (n.1 + s * D.N)

theorem sum_seen (s : Nat) (f : Nat → ℝ) (h : ∀ n < D.N, sensitivity D g s n = 0 → f n = 0) :
    ∑ n : SeenIx D g s, f n.1 = ∑ n ∈ Finset.range D.N, f n := by
  classical
  have := Finset.sum_subtype (Finset.univ.filter fun n : Fin D.N => sensitivity D g s n ≠ 0)
    (p := fun n : Fin D.N => sensitivity D g s n ≠ 0) (F := inferInstance) (by simp) (fun n : Fin D.N => f n)
  rw [← this, Finset.sum_filter, ← Fin.sum_univ_eq_sum_range (fun n => f n) D.N]
  refine Finset.sum_congr rfl fun n _ => ?_
  split
  · rfl
  · rename_i hn
    rw [not_not] at hn
    exact (h n n.2 hn).symm

theorem lenIn_unseen (hg : GeomOk D g) {s : Nat} (hs : s < D.dy) {n : Nat}
    (h0 : sensitivity D g s n = 0) {q : Nat × Nat} (hq : q ∈ hits D g s) : lenIn (g s q.1 q.2) n = 0 := by
  unfold sensitivity at h0
  rw [sens_eq] at h0
  exact (Finset.sum_eq_zero_iff_of_nonneg fun q hq =>
    lenIn_nonneg (hg s hs _ (mem_hits.mp hq).1.1 _ (mem_hits.mp hq).1.2) n).mp h0 q hq

theorem sumDist2_pos_hit {s : Nat} {q : Nat × Nat} (hq : q ∈ hits D g s) :
    0 < sumDist2 (g s q.1 q.2) := by
  have hm := mem_hits.mp hq
  exact lt_of_le_of_ne (sumDist2_nonneg _) (Ne.symm hm.2)

theorem sens_pos (hg : GeomOk D g) {s : Nat} (hs : s < D.dy) (n : SeenIx D g s) :
    0 < sensitivity D g s n.1 :=
  lt_of_le_of_ne (sensitivity_nonneg hg hs _) (Ne.symm n.2)

theorem siM_mulVec (hg : GeomOk D g) {s : Nat} (hs : s < D.dy) (r : Mem ℝ) (q : HitIx D g s) :
    (siM D g s *ᵥ siX D g s r) q =
      lineSum D.N s (g s q.1.1 q.1.2) r / Real.sqrt (sumDist2 (g s q.1.1 q.1.2)) := by
  have hm := mem_hits.mp q.2
  rw [lineSum_eq_sum_lenIn fun e he => (hg s hs _ hm.1.1 _ hm.1.2 e he).1, Finset.sum_div,
    ← sum_seen (D := D) (g := g) s (fun n => r (n + s * D.N) * lenIn (g s q.1.1 q.1.2) n /
      Real.sqrt (sumDist2 (g s q.1.1 q.1.2))) (fun n _ h0 => by
        rw [lenIn_unseen hg hs h0 q.2, mul_zero, zero_div])]
  simp only [mulVec, dotProduct]
  refine Finset.sum_congr rfl fun n _ => ?_
  unfold siM siX
  have h1 := Real.sqrt_pos.mpr (sens_pos hg hs n)
  have h2 := Real.sqrt_pos.mpr (sumDist2_pos_hit q.2)
  field_simp

theorem siX_dot (hg : GeomOk D g) {s : Nat} (hs : s < D.dy) (r z : Mem ℝ) :
    (siX D g s r - siX D g s z) ⬝ᵥ (siX D g s r - siX D g s z) = wdist D g s r z := by
  unfold wdist
  rw [← sum_seen (D := D) (g := g) s
    (fun n => sensitivity D g s n * (r (n + s * D.N) - z (n + s * D.N)) ^ 2)
    (fun n _ h0 => by rw [h0, zero_mul])]
  simp only [dotProduct]
  refine Finset.sum_congr rfl fun n _ => ?_
  show (Real.sqrt _ * _ - Real.sqrt _ * _) * (Real.sqrt _ * _ - Real.sqrt _ * _) = _
  have h1 := Real.mul_self_sqrt (sens_pos hg hs n).le
  calc _ = (Real.sqrt (sensitivity D g s n.1) * Real.sqrt (sensitivity D g s n.1)) *
        (r (n.1 + s * D.N) - z (n.1 + s * D.N)) ^ 2 := by ring
    _ = _ := by rw [h1]

theorem siX_norm (hg : GeomOk D g) {s : Nat} (hs : s < D.dy) (r : Mem ℝ) :
    siX D g s r ⬝ᵥ siX D g s r = wdist D g s r (fun _ => 0) := by
  rw [← siX_dot hg hs]
  have : siX D g s (fun _ => 0) = 0 := by funext n; unfold siX; simp
  rw [this, sub_zero]

theorem wres_eq (hg : GeomOk D g) {s : Nat} (hs : s < D.dy) (u : Mem ℝ) :
    wres D g data s u = Lw.res2 (siM D g s) (siB D g data s) (siX D g s u) := by
  unfold wres Lw.res2
  rw [sum_hits, ← Finset.sum_coe_sort (hits D g s)]
  simp only [dotProduct]
  refine Finset.sum_congr rfl fun q _ => ?_
  have e : (siM D g s *ᵥ siX D g s u - siB D g data s) q =
      (lineSum D.N s (g s q.1.1 q.1.2) u - data (D.data s q.1.1 q.1.2)) /
        Real.sqrt (sumDist2 (g s q.1.1 q.1.2)) := by
    rw [Pi.sub_apply, siM_mulVec hg hs, sub_div]
    rfl
  rw [e, div_mul_div_comm, Real.mul_self_sqrt (sumDist2_pos_hit q.2).le]
  ring

theorem siX_surj (s : Nat) (ξ : SeenIx D g s → ℝ) (hpos : ∀ n : SeenIx D g s, 0 < sensitivity D g s n.1) :
    ∃ u : Mem ℝ, siX D g s u = ξ := by
  classical
  refine ⟨fun i => if h : ∃ n : SeenIx D g s, n.1 + s * D.N = i then
    ξ h.choose / Real.sqrt (sensitivity D g s h.choose.1) else 0, ?_⟩
  funext n
  unfold siX
  have h : ∃ m : SeenIx D g s, m.1 + s * D.N = n.1 + s * D.N := ⟨n, rfl⟩
  show _ * dite _ _ _ = _
  rw [dif_pos h]
  have e : h.choose = n := by
    have := h.choose_spec
    exact Subtype.ext (Fin.ext (by omega))
  rw [e]
  have := Real.sqrt_pos.mpr (hpos n)
  field_simp

theorem sirt_lwStep (hg : GeomOk D g) {s : Nat} (hs : s < D.dy) {r r' : Mem ℝ}
    (h : sirt D g data 1 r = some r') : siX D g s r' =
      Lw.step (siM D g s) (siB D g data s) (1 / 2) (siX D g s r) := by
  obtain ⟨r1, h1, h2⟩ := sirt_one data hg r
  rw [h] at h1
  obtain rfl := Option.some.inj h1
  funext n
  unfold Lw.step
  have hsq := Real.sqrt_pos.mpr (sens_pos hg hs n)
  have hss := Real.mul_self_sqrt (sens_pos hg hs n).le
  have e : ((siM D g s *ᵥ siX D g s r - siB D g data s) ᵥ* siM D g s) n =
      (∑ q ∈ hits D g s, (lineSum D.N s (g s q.1 q.2) r - data (D.data s q.1 q.2)) /
        sumDist2 (g s q.1 q.2) * lenIn (g s q.1 q.2) n.1) / Real.sqrt (sensitivity D g s n.1) := by
    rw [← Finset.sum_coe_sort (hits D g s), Finset.sum_div]
    simp only [vecMul, dotProduct]
    refine Finset.sum_congr rfl fun q _ => ?_
    rw [Pi.sub_apply, siM_mulVec hg hs]
    unfold siB siM
    have h3 := Real.sqrt_pos.mpr (sumDist2_pos_hit q.2)
    have h4 := Real.mul_self_sqrt (sumDist2_pos_hit q.2).le
    rw [← sub_div, div_mul_div_comm, ← mul_assoc, h4, div_mul_eq_mul_div, div_div]
  show Real.sqrt (sensitivity D g s n.1) * r' (n.1 + s * D.N) =
    Real.sqrt (sensitivity D g s n.1) * r (n.1 + s * D.N) - 2 * (1 / 2) * _
  rw [e, h2 s hs n.1 n.1.2, if_pos n.2, sum_hits]
  have e2 : ∑ q ∈ hits D g s, (data (D.data s q.1 q.2) - lineSum D.N s (g s q.1 q.2) r) /
        sumDist2 (g s q.1 q.2) * lenIn (g s q.1 q.2) n.1 =
      - ∑ q ∈ hits D g s, (lineSum D.N s (g s q.1 q.2) r - data (D.data s q.1 q.2)) /
        sumDist2 (g s q.1 q.2) * lenIn (g s q.1 q.2) n.1 := by
    rw [← Finset.sum_neg_distrib]
    exact Finset.sum_congr rfl fun q _ => by ring
  rw [e2]
  generalize ∑ q ∈ hits D g s, (lineSum D.N s (g s q.1 q.2) r - data (D.data s q.1 q.2)) /
        sumDist2 (g s q.1 q.2) * lenIn (g s q.1 q.2) n.1 = S
  rw [mul_add, show Real.sqrt (sensitivity D g s n.1) * (-S / sensitivity D g s n.1) =
    -(S / Real.sqrt (sensitivity D g s n.1)) from by
      rw [← hss]
      field_simp
      rw [Real.sqrt_sq hsq.le]]
  ring

theorem sirt_unseen (hg : GeomOk D g) {s : Nat} (hs : s < D.dy) {r r' : Mem ℝ}
    (h : sirt D g data 1 r = some r') {n : Nat} (hn : n < D.N) (h0 : sensitivity D g s n = 0) :
    r' (n + s * D.N) = r (n + s * D.N) := by
  obtain ⟨r1, h1, h2⟩ := sirt_one data hg r
  rw [h] at h1
  obtain rfl := Option.some.inj h1
  rw [h2 s hs n hn, if_neg (by simpa using h0), add_zero]

theorem sirt_value (hg : GeomOk D g) (data recon : Mem ℝ) :
    ∃ x : ℕ → Mem ℝ, (∀ k, sirt D g data k recon = some (x k)) ∧
      ∀ k, ∀ s < D.dy, siX D g s (x k) = (Lw.step (siM D g s) (siB D g data s) (1 / 2))^[k] (siX D g s recon) ∧
        ∀ n < D.N, sensitivity D g s n = 0 → x k (n + s * D.N) = recon (n + s * D.N) := by
  choose x hx using fun k => sirt_defined data hg recon k
  refine ⟨x, hx, fun k => ?_⟩
  have hsucc : ∀ k, sirt D g data 1 (x k) = some (x (k + 1)) := by
    intro k
    have := hx (k + 1)
    rwa [sirt_succ, hx k, Option.bind_some] at this
  induction k with
  | zero =>
    have : x 0 = recon := by
      have := hx 0
      rw [sirt_zero] at this
      exact (Option.some.inj this).symm
    intro s hs
    rw [this]
    exact ⟨rfl, fun _ _ _ => rfl⟩
  | succ k ih =>
    intro s hs
    obtain ⟨i1, i2⟩ := ih s hs
    refine ⟨?_, fun n hn h0 => ?_⟩
    · rw [sirt_lwStep hg hs (hsucc k), i1, Function.iterate_succ_apply']
    · rw [sirt_unseen hg hs (hsucc k) hn h0, i2 n hn h0]

theorem sirtOk_iff (hg : GeomOk D g) : SirtOk D g ↔ ∀ s < D.dy, ∀ ξ, ξ ≠ 0 →
    1 / 2 * ((siM D g s *ᵥ ξ) ⬝ᵥ (siM D g s *ᵥ ξ)) < ξ ⬝ᵥ ξ := by
  have hz : ∀ s, siB D g (fun _ => 0) s = 0 := fun s => by funext q; unfold siB; simp
  constructor
  · intro h s hs ξ hξ
    obtain ⟨u, rfl⟩ := siX_surj s ξ (sens_pos hg hs)
    have := h s hs u
    rw [← siX_norm hg hs, wres_eq hg hs, hz] at this
    unfold Lw.res2 at this
    rw [sub_zero] at this
    have := this (fun e => hξ (Lw.dot_zero_iff.mp e))
    linarith
  · intro h s hs u hu
    rw [← siX_norm hg hs] at hu ⊢
    have := h s hs (siX D g s u) (fun e => hu (Lw.dot_zero_iff.mpr e))
    rw [wres_eq hg hs, hz]
    unfold Lw.res2
    rw [sub_zero]
    linarith

/-- **C154**: under the condition `SirtOk` the results of `sirt` converge for all data and initial
images to the minimiser of the weighted residual nearest to the initial image. -/
theorem sirt_limit (hg : GeomOk D g) (hok : SirtOk D g) (data recon : Mem ℝ) :
    ∃ (x : ℕ → Mem ℝ) (u : Mem ℝ), (∀ k, sirt D g data k recon = some (x k)) ∧
      ∀ s < D.dy, (∀ n < D.N, Tendsto (fun k => x k (n + s * D.N)) atTop (𝓝 (u (n + s * D.N)))) ∧
        (∀ u', wres D g data s u ≤ wres D g data s u') ∧
        (∀ u', wres D g data s u' = wres D g data s u → wdist D g s u recon ≤ wdist D g s u' recon) ∧
        ∀ n < D.N, sensitivity D g s n = 0 → u (n + s * D.N) = recon (n + s * D.N) := by
  obtain ⟨x, hx, hv⟩ := sirt_value hg data recon
  rw [sirtOk_iff hg] at hok
  have hz : ∀ s, ∃ z : SeenIx D g s → ℝ, s < D.dy → Lw.Normal (siM D g s) (siB D g data s) z ∧
      Tendsto (fun k => (Lw.step (siM D g s) (siB D g data s) (1 / 2))^[k] (siX D g s recon)) atTop (𝓝 z) ∧
      ∃ y, z - siX D g s recon = y ᵥ* siM D g s := by
    intro s
    by_cases hs : s < D.dy
    · obtain ⟨κ, k0, k1, hκ⟩ := Lw.uniform_of_strict (by norm_num) (hok s hs)
      obtain ⟨z, h⟩ := Lw.converges (τ := 1 / 2) (by norm_num) k0 k1 hκ (siB D g data s) (siX D g s recon)
      exact ⟨z, fun _ => h⟩
    · exact ⟨0, fun h => absurd h hs⟩
  choose z hz using hz
  classical
  obtain ⟨u, hu1, hu2⟩ : ∃ u : Mem ℝ, (∀ s, ∀ n : SeenIx D g s,
      u (n.1 + s * D.N) = z s n / Real.sqrt (sensitivity D g s n.1)) ∧
      ∀ s, ∀ n < D.N, sensitivity D g s n = 0 → u (n + s * D.N) = recon (n + s * D.N) := by
    have inj : ∀ (p q : (s : ℕ) × SeenIx D g s), p.2.1 + p.1 * D.N = q.2.1 + q.1 * D.N → p = q := by
      rintro ⟨s, n⟩ ⟨t, m⟩ h
      have hst : s = t := by
        have := congrArg (· / D.N) h
        simpa [Nat.add_mul_div_right _ _ (show 0 < D.N by have := n.1.2; omega),
          Nat.div_eq_of_lt n.1.2, Nat.div_eq_of_lt m.1.2] using this
      subst hst
      have : n = m := Subtype.ext (Fin.ext (by simpa using h))
      rw [this]
    refine ⟨fun i => if h : ∃ p : (s : ℕ) × SeenIx D g s, p.2.1 + p.1 * D.N = i then
      z h.choose.1 h.choose.2 / Real.sqrt (sensitivity D g h.choose.1 h.choose.2.1) else recon i,
      fun s n => ?_, fun s n hn h0 => ?_⟩
    · have h : ∃ p : (s : ℕ) × SeenIx D g s, p.2.1 + p.1 * D.N = n.1 + s * D.N := ⟨⟨s, n⟩, rfl⟩
      have e : h.choose = ⟨s, n⟩ := inj _ _ h.choose_spec
      show dite _ _ _ = _
      rw [dif_pos h, e]
    · show dite _ _ _ = _
      rw [dif_neg]
      rintro ⟨⟨t, m⟩, h⟩
      have hst : t = s := by
        have := congrArg (· / D.N) h
        simpa [Nat.add_mul_div_right _ _ (show 0 < D.N by omega), Nat.div_eq_of_lt hn,
          Nat.div_eq_of_lt m.1.2] using this
      subst hst
      have : (m.1 : ℕ) = n := by simpa using h
      exact m.2 (this ▸ h0)
  have hpu : ∀ s < D.dy, siX D g s u = z s := by
    intro s hs
    funext n
    unfold siX
    rw [hu1]
    have := Real.sqrt_pos.mpr (sens_pos hg hs n)
    field_simp
  refine ⟨x, u, hx, fun s hs => ⟨fun n hn => ?_, fun u' => ?_, fun u' he => ?_, fun n hn => hu2 s n hn⟩⟩
  · by_cases h0 : sensitivity D g s n = 0
    · rw [hu2 s n hn h0]
      have : (fun k => x k (n + s * D.N)) = fun _ => recon (n + s * D.N) :=
        funext fun k => (hv k s hs).2 n hn h0
      rw [this]
      exact tendsto_const_nhds
    · have ht := (tendsto_pi_nhds.mp (hz s hs).2.1) ⟨⟨n, hn⟩, h0⟩
      have h2 := ht.div_const (Real.sqrt (sensitivity D g s n))
      rw [← hu1 s ⟨⟨n, hn⟩, h0⟩] at h2
      refine h2.congr fun k => ?_
      rw [← (hv k s hs).1]
      unfold siX
      have := Real.sqrt_pos.mpr (sens_pos hg hs ⟨⟨n, hn⟩, h0⟩)
      field_simp
  · rw [wres_eq hg hs, wres_eq hg hs, hpu s hs]
    exact Lw.normal_minimises (hz s hs).1 _
  · rw [wres_eq hg hs, wres_eq hg hs, hpu s hs] at he
    have hn : Lw.Normal (siM D g s) (siB D g data s) (siX D g s u') :=
      Lw.minimises_normal fun ξ => he ▸ Lw.normal_minimises (hz s hs).1 ξ
    have := Lw.nearest (hz s hs).1 hn (hz s hs).2.2
    rw [← hpu s hs, siX_dot hg hs, siX_dot hg hs] at this
    exact this

/-- **C154**: the results of `sirt` converge for all data and initial images exactly under the
condition `SirtOk`. -/
theorem sirt_converges_iff (hg : GeomOk D g) :
    (∀ data recon, ∃ (x : ℕ → Mem ℝ) (u : Mem ℝ), (∀ k, sirt D g data k recon = some (x k)) ∧
      ∀ s < D.dy, ∀ n < D.N, Tendsto (fun k => x k (n + s * D.N)) atTop (𝓝 (u (n + s * D.N)))) ↔
    SirtOk D g := by
  constructor
  · intro h
    by_contra hno
    rw [sirtOk_iff hg] at hno
    push Not at hno
    obtain ⟨s, hs, ξ, hξ, hle⟩ := hno
    obtain ⟨e, i, hne⟩ := Lw.not_converges (τ := 1 / 2) (by norm_num) hξ hle
    obtain ⟨recon, rfl⟩ := siX_surj s e (sens_pos hg hs)
    obtain ⟨x, u, hx, hu⟩ := h (fun _ => 0) recon
    obtain ⟨x', hx', hv⟩ := sirt_value hg (fun _ => 0) recon
    have ex : x' = x := funext fun k => Option.some.inj ((hx' k).symm.trans (hx k))
    subst ex
    have hz : siB D g (fun _ => 0) s = 0 := by funext q; unfold siB; simp
    apply hne (Real.sqrt (sensitivity D g s i.1) * u (i.1 + s * D.N))
    have := (hu s hs i.1 i.1.2).const_mul (Real.sqrt (sensitivity D g s i.1))
    refine this.congr fun k => ?_
    rw [← hz, ← (hv k s hs).1]
    rfl
  · intro hok data recon
    obtain ⟨x, u, h1, h2⟩ := sirt_limit hg hok data recon
    exact ⟨x, u, h1, fun s hs => (h2 s hs).1⟩

/-- The weighted distance to zero is the sum over the rays of
the squared pixels weighted by their lengths. -/
theorem wdist_rays (s : Nat) (u : Mem ℝ) : wdist D g s u (fun _ => 0) =
    ∑ q ∈ hits D g s, ∑ n ∈ Finset.range D.N, lenIn (g s q.1 q.2) n * u (n + s * D.N) ^ 2 := by
  unfold wdist sensitivity
  rw [Finset.sum_comm]
  refine Finset.sum_congr rfl fun n _ => ?_
  rw [sens_eq, Finset.sum_mul]
  exact Finset.sum_congr rfl fun q _ => by rw [sub_zero]

/-- **C154**: the condition holds if every ray that hits the image is shorter than twice its sum of
squares. -/
theorem sirtOk_of_rays (hg : GeomOk D g) (h : ∀ s < D.dy, ∀ p < D.dt, ∀ d < D.dx,
    sumDist2 (g s p d) ≠ 0 → rayLength (g s p d) < 2 * sumDist2 (g s p d)) : SirtOk D g := by
  intro s hs u hu
  have hq0 : ∀ q ∈ hits D g s, ∀ n, 0 ≤ lenIn (g s q.1 q.2) n := fun q hq n =>
    lenIn_nonneg (hg s hs _ (mem_hits.mp hq).1.1 _ (mem_hits.mp hq).1.2) n
  have hW : ∀ q ∈ hits D g s, 0 ≤ ∑ n ∈ Finset.range D.N, lenIn (g s q.1 q.2) n * u (n + s * D.N) ^ 2 :=
    fun q hq => Finset.sum_nonneg fun n _ => mul_nonneg (hq0 q hq n) (sq_nonneg _)
  have hcs : ∀ q ∈ hits D g s, lineSum D.N s (g s q.1 q.2) u ^ 2 ≤ rayLength (g s q.1 q.2) *
      ∑ n ∈ Finset.range D.N, lenIn (g s q.1 q.2) n * u (n + s * D.N) ^ 2 := by
    intro q hq
    have hm := mem_hits.mp hq
    rw [rayLength_eq fun e he => (hg s hs _ hm.1.1 _ hm.1.2 e he).1,
      lineSum_eq_sum_lenIn fun e he => (hg s hs _ hm.1.1 _ hm.1.2 e he).1]
    refine Finset.sum_sq_le_sum_mul_sum_of_sq_le_mul _ (fun n _ => hq0 q hq n)
      (fun n _ => mul_nonneg (hq0 q hq n) (sq_nonneg _)) fun n _ => le_of_eq (by ring)
  unfold wres
  rw [sum_hits, wdist_rays, Finset.mul_sum]
  rw [wdist_rays] at hu
  obtain ⟨q, hq, hne⟩ := Finset.exists_ne_zero_of_sum_ne_zero hu
  refine Finset.sum_lt_sum (fun q hq => ?_) ⟨q, hq, ?_⟩
  · have hm := mem_hits.mp hq
    have hp := sumDist2_pos_hit hq
    rw [sub_zero, div_le_iff₀ hp]
    have := h s hs _ hm.1.1 _ hm.1.2 hm.2
    have := mul_le_mul_of_nonneg_right this.le (hW q hq)
    have := hcs q hq
    linarith
  · have hm := mem_hits.mp hq
    have hp := sumDist2_pos_hit hq
    rw [sub_zero, div_lt_iff₀ hp]
    have := h s hs _ hm.1.1 _ hm.1.2 hm.2
    have := mul_lt_mul_of_pos_right this (lt_of_le_of_ne (hW q hq) (Ne.symm hne))
    have := hcs q hq
    linarith

/-- **C154**: the condition fails if on some slice the sum over the rays of the squared length divided
by the sum of squares is at least twice the total length of the rays. -/
theorem not_sirtOk (hg : GeomOk D g) {s : Nat} (hs : s < D.dy)
    (h0 : ∑ q ∈ hits D g s, rayLength (g s q.1 q.2) ≠ 0)
    (h : 2 * ∑ q ∈ hits D g s, rayLength (g s q.1 q.2) ≤
      ∑ q ∈ hits D g s, rayLength (g s q.1 q.2) ^ 2 / sumDist2 (g s q.1 q.2)) : ¬ SirtOk D g := by
  intro hok
  have e : wdist D g s (fun _ => 1) (fun _ => 0) = ∑ q ∈ hits D g s, rayLength (g s q.1 q.2) := by
    rw [wdist_rays]
    refine Finset.sum_congr rfl fun q hq => ?_
    have hm := mem_hits.mp hq
    rw [rayLength_eq fun e he => (hg s hs _ hm.1.1 _ hm.1.2 e he).1]
    simp
  have := hok s hs (fun _ => 1)
  rw [e] at this
  have h1 := this h0
  unfold wres at h1
  rw [sum_hits] at h1
  refine absurd h1 (not_lt.mpr (h.trans (le_of_eq (Finset.sum_congr rfl fun q hq => ?_))))
  have hm := mem_hits.mp hq
  rw [rayLength_eq fun e he => (hg s hs _ hm.1.1 _ hm.1.2 e he).1,
    lineSum_eq_sum_lenIn fun e he => (hg s hs _ hm.1.1 _ hm.1.2 e he).1]
  simp

end Real

/-! ## Cases that meet the hypotheses -/

/-- Two pixels; each of the two angles has one ray through both pixels. -/
def seG : Geom ℝ := fun _ p _ => [(0, 1), (1, (p : ℝ) + 1)]

theorem seG_ok : GeomOk ⟨1, 2, 1, 2⟩ seG := by
  intro s _ p _ d _ e he
  simp only [seG, List.mem_cons, List.not_mem_nil, or_false] at he
  rcases he with rfl | rfl
  · exact ⟨by norm_num [Dims.N], by norm_num⟩
  · exact ⟨by norm_num [Dims.N], by positivity⟩

theorem seG_sirtOk : SirtOk ⟨1, 2, 1, 2⟩ seG := by
  refine sirtOk_of_rays seG_ok fun s _ p _ d _ _ => ?_
  simp only [seG, rayLength, sumDist2, List.foldl_cons, List.foldl_nil, List.map_cons, List.map_nil,
    List.sum_cons, List.sum_nil]
  have : (0 : ℝ) ≤ p := Nat.cast_nonneg p
  nlinarith

/-- The data of the two rays are arbitrary. -/
example (data recon : Mem ℝ) : ∃ (x : ℕ → Mem ℝ) (u : Mem ℝ),
    (∀ k, sirt ⟨1, 2, 1, 2⟩ seG data k recon = some (x k)) ∧
      ∀ s < 1, ∀ n < 2, Tendsto (fun k => x k (n + s * 2)) atTop (𝓝 (u (n + s * 2))) :=
  (sirt_converges_iff seG_ok).mpr seG_sirtOk data recon

end Tomopy.Iter
