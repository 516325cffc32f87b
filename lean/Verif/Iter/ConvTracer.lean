import Verif.Iter.Tracer
import Verif.Iter.ConvArt
import Verif.Iter.ConvMlem
import Verif.Iter.ConvSirt

/-!
# Convergence with the geometry computed by the ray tracer (C138-C140)
-/

namespace Tomopy.Iter

open Filter Topology
open Tomopy.Ray (ClearOfAxes hypot)

/-- **C138** for the code: `art` on the projections of an image converges to the image with these
projections that is nearest to the initial one. -/
theorem art_projection_converges (rx rz dx dy dt : Nat) (c : ℝ) (theta : Nat → ℝ)
    (hc : ∀ p < dt, ClearOfAxes (theta p)) (z recon : Mem ℝ) :
    ∃ lim : Mem ℝ,
      (∀ s < dy, ∀ n < rx * rz, Tendsto (fun k =>
        art ⟨dy, dt, dx, rx * rz⟩ (tracerGeom rx rz dx (fun _ => c) theta)
          (project ⟨dy, dt, dx, rx * rz⟩ (tracerGeom rx rz dx (fun _ => c) theta) z zeros) k recon
          (n + s * (rx * rz))) atTop (𝓝 (lim (n + s * (rx * rz))))) ∧
      ∀ y : Mem ℝ, (∀ s < dy, ∀ p < dt, ∀ d < dx,
        lineSum (rx * rz) s (tracerGeom rx rz dx (fun _ => c) theta 0 p d) y =
          lineSum (rx * rz) s (tracerGeom rx rz dx (fun _ => c) theta 0 p d) z) →
        ∀ s < dy, dist2 ⟨dy, dt, dx, rx * rz⟩ s recon y =
          dist2 ⟨dy, dt, dx, rx * rz⟩ s recon lim + dist2 ⟨dy, dt, dx, rx * rz⟩ s lim y := by
  have hcons : ∀ y : Mem ℝ, (∀ s < dy, ∀ p < dt, ∀ d < dx,
        lineSum (rx * rz) s (tracerGeom rx rz dx (fun _ => c) theta 0 p d) y =
          lineSum (rx * rz) s (tracerGeom rx rz dx (fun _ => c) theta 0 p d) z) →
      Consistent ⟨dy, dt, dx, rx * rz⟩ (fun _ => tracerGeom rx rz dx (fun _ => c) theta 0)
        (project ⟨dy, dt, dx, rx * rz⟩ (tracerGeom rx rz dx (fun _ => c) theta) z zeros) y := by
    intro y hy s hs p hp d hd _
    rw [project_value _ _ z zeros hs hp hd, ← hy s hs p hp d hd]
    simp [zeros]
  obtain ⟨lim, -, h2, h3⟩ := art_converges (tracer_geomOk rx rz dx dy dt (fun _ => c) theta)
    (tracer_geomOnce rx rz dx dy dt (fun _ => c) theta hc) (hcons z fun _ _ _ _ _ _ => rfl) recon
  exact ⟨lim, h2, fun y hy => h3 y (hcons y hy)⟩

/-- **C139** for the code. -/
theorem mlem_likelihood_tracer (rx rz dx dy dt : Nat) (center theta : Nat → ℝ) {data recon : Mem ℝ}
    (hd : PosData ⟨dy, dt, dx, rx * rz⟩ data) (hr : PosImage ⟨dy, dt, dx, rx * rz⟩ recon)
    {k l : Nat} (hkl : k ≤ l) :
    ∃ r r', mlem ⟨dy, dt, dx, rx * rz⟩ (tracerGeom rx rz dx center theta) data k recon = some r ∧
      mlem ⟨dy, dt, dx, rx * rz⟩ (tracerGeom rx rz dx center theta) data l recon = some r' ∧
      ∀ s < dy,
        logLik ⟨dy, dt, dx, rx * rz⟩ (tracerGeom rx rz dx center theta) data s r ≤
        logLik ⟨dy, dt, dx, rx * rz⟩ (tracerGeom rx rz dx center theta) data s r' :=
  mlem_likelihood (tracer_geomOk rx rz dx dy dt center theta) hd hr hkl

/-! ## A ray near the corner of a pixel -/

theorem clear_quarter : ClearOfAxes (Real.pi / 4) := by
  intro k
  right
  have e : Real.pi / 4 - k * (Real.pi / 2) = ((1 - 2 * k : Int) : ℝ) * (Real.pi / 4) := by
    push_cast; ring
  rw [e, abs_mul, abs_of_pos (show 0 < Real.pi / 4 by positivity)]
  have h1 : (1 : ℝ) ≤ |((1 - 2 * k : Int) : ℝ)| := by
    rw [← Int.cast_abs]; exact_mod_cast Int.one_le_abs (by omega)
  have h2 : (1 : ℝ) / Ray.ipiC ≤ 1 / 2 := by
    rw [div_le_iff₀ Ray.ipiC_pos]; norm_num [Ray.ipiC]
  have := Real.pi_gt_three
  nlinarith

/-- The centre for which the ray is the line `y = x + 4/5`. -/
private noncomputable def cornerCenter : ℝ := 1 / 2 - 2 / 5 * √2

private theorem corner_rayY : Ray.rayY 1 0 (Ray.mov 1 cornerCenter) = 2 / 5 * √2 := by
  have h2 : √2 * √2 = (2 : ℝ) := Real.mul_self_sqrt (by norm_num)
  have hn := Real.sqrt_nonneg 2
  have hlo : (14 : ℝ) / 10 ≤ √2 := Real.le_sqrt_of_sq_le (by norm_num)
  have hhi : √2 ≤ (15 : ℝ) / 10 := Real.sqrt_le_iff.mpr (by norm_num)
  have hf : ⌊(((1 : Nat) : ℝ) - 1) * (1 / 2) - cornerCenter⌋ = 0 := by
    rw [Int.floor_eq_zero_iff]
    unfold cornerCenter
    constructor <;> push_cast <;> linarith
  unfold Ray.rayY Ray.mov
  rw [hf]
  rw [if_neg (by unfold cornerCenter; push_cast; linarith)]
  unfold cornerCenter
  push_cast
  ring

/-- The tracer computes a chord of length `√2 / 5` for the ray that cuts a corner. -/
theorem corner_length :
    rayLength (tracerGeom 1 1 1 (fun _ => cornerCenter) (fun _ => Real.pi / 4) 0 0 0) = √2 / 5 := by
  obtain ⟨segs, pts, h1, h2, h3, h4, h5, h6⟩ :=
    Ray.rayTrace_spec_partial 1 1 1 cornerCenter (Real.pi / 4) 0 clear_quarter
  have hs2 : √2 * √2 = (2 : ℝ) := Real.mul_self_sqrt (by norm_num)
  have hpos : 0 < √(2 : ℝ) := Real.sqrt_pos.mpr (by norm_num)
  rw [corner_rayY, Real.sin_pi_div_four, Real.cos_pi_div_four] at h2
  rw [Real.sin_pi_div_four, Real.cos_pi_div_four] at h3
  have hmem : ∀ P, P ∈ pts ↔ P = (-(1 / 2), 3 / 10) ∨ P = (-(3 / 10), 1 / 2) := by
    intro P
    rw [h2 (by norm_num)]
    have hon : Ray.OnRay (2 / 5 * √2) (√2 / 2) (√2 / 2) P ↔ P.2 = P.1 + 4 / 5 := by
      unfold Ray.OnRay
      constructor
      · intro h
        have : √2 * (P.2 - P.1 - 4 / 5) = 0 := by
          linear_combination 2 * h + 2 / 5 * √2 * hs2
        rcases mul_eq_zero.mp this with h | h
        · exact absurd h hpos.ne'
        · linarith
      · intro h
        rw [h]
        linear_combination -(1 / 5) * √2 * hs2
    have hgrid : ∀ v : ℝ, (∃ n ≤ 1, v = Ray.grid 1 n) ↔ v = -(1 / 2) ∨ v = 1 / 2 := by
      intro v
      constructor
      · rintro ⟨n, hn, rfl⟩
        obtain rfl | rfl : n = 0 ∨ n = 1 := by omega
        · left; norm_num [Ray.grid]
        · right; norm_num [Ray.grid]
      · rintro (rfl | rfl)
        · exact ⟨0, by omega, by norm_num [Ray.grid]⟩
        · exact ⟨1, by omega, by norm_num [Ray.grid]⟩
    unfold Ray.IsCrossing Ray.Margin
    rw [hon, hgrid, hgrid]
    obtain ⟨x, y⟩ := P
    simp only [Prod.mk.injEq]
    push_cast
    constructor
    · rintro ⟨h, ⟨-, ⟨m1, m2⟩, rfl | rfl⟩ | ⟨-, ⟨m1, m2⟩, rfl | rfl⟩⟩
      · exfalso; linarith
      · right; exact ⟨by linarith, rfl⟩
      · left; exact ⟨rfl, by linarith⟩
      · exfalso; linarith
    · have hne : √2 / 2 ≠ (0 : ℝ) := by positivity
      rintro (⟨rfl, rfl⟩ | ⟨rfl, rfl⟩)
      · exact ⟨by norm_num, Or.inr ⟨hne, by norm_num, Or.inl rfl⟩⟩
      · exact ⟨by norm_num, Or.inl ⟨hne, by norm_num, Or.inr rfl⟩⟩
  have hP : ((-(1 / 2), 3 / 10) : ℝ × ℝ) ∈ pts := (hmem _).mpr (Or.inl rfl)
  have hQ : ((-(3 / 10), 1 / 2) : ℝ × ℝ) ∈ pts := (hmem _).mpr (Or.inr rfl)
  have hne : pts ≠ [] := List.ne_nil_of_mem hP
  obtain ⟨first, hfirst⟩ : ∃ f, pts.head? = some f := ⟨pts.head hne, List.head?_eq_some_head hne⟩
  obtain ⟨last, hlast⟩ : ∃ f, pts.getLast? = some f :=
    ⟨pts.getLast hne, List.getLast?_eq_some_getLast hne⟩
  have hsum := h5 first last hfirst hlast
  -- the two ends are different
  have hdiff : first ≠ last := by
    intro he
    subst he
    obtain ⟨t, ht⟩ : ∃ t, pts = first :: t := by
      cases hp : pts with
      | nil => exact absurd hp hne
      | cons a t => rw [hp, List.head?_cons, Option.some.injEq] at hfirst; exact ⟨t, by rw [hfirst]⟩
    obtain ⟨t', ht'⟩ : ∃ t', pts = t' ++ [first] := by
      have := List.dropLast_append_getLast? first hlast
      exact ⟨_, this.symm⟩
    -- all points are level with the first one
    have hlevel : ∀ R ∈ pts, (R.1 - first.1) * (√2 / 2) + (R.2 - first.2) * (√2 / 2) = 0 := by
      intro R hR
      have a1 : R = first ∨ R ∈ t := by rw [ht] at hR; exact List.mem_cons.mp hR
      have a2 : R ∈ t' ∨ R = first := by
        rw [ht', List.mem_append, List.mem_singleton] at hR; exact hR
      rcases a1 with rfl | a1
      · ring
      rcases a2 with a2 | rfl
      swap
      · ring
      rcases h3 with h3 | h3
      · have b1 := h3
        rw [ht] at b1
        have c1 := (List.pairwise_cons.mp b1).1 R a1
        have b2 := h3
        rw [ht'] at b2
        have c2 := (List.pairwise_append.mp b2).2.2 R a2 first (List.mem_singleton.mpr rfl)
        linarith
      · have b1 := h3
        rw [ht] at b1
        have c1 := (List.pairwise_cons.mp b1).1 R a1
        have b2 := h3
        rw [ht'] at b2
        have c2 := (List.pairwise_append.mp b2).2.2 R a2 first (List.mem_singleton.mpr rfl)
        linarith
    have l1 := hlevel _ hP
    have l2 := hlevel _ hQ
    simp only at l1 l2
    nlinarith
  have hf : first ∈ pts := List.mem_of_mem_head? hfirst
  have hl : last ∈ pts := List.mem_of_getLast? hlast
  have hhyp : hypot (last.1 - first.1) (last.2 - first.2) = √2 / 5 := by
    have e : ∀ a : ℝ, a * a = 1 / 25 → √(a * a + a * a) = √2 / 5 := by
      intro a ha
      rw [Real.sqrt_eq_iff_mul_self_eq (by linarith) (by positivity), ha]
      linear_combination (-1 / 25) * hs2
    unfold hypot
    rcases (hmem first).mp hf with rfl | rfl <;> rcases (hmem last).mp hl with rfl | rfl
    · exact absurd rfl hdiff
    · simp only
      rw [show (-(3 / 10) - -(1 / 2) : ℝ) = 1 / 2 - 3 / 10 by norm_num]
      exact e _ (by norm_num)
    · simp only
      rw [show (-(1 / 2) - -(3 / 10) : ℝ) = 3 / 10 - 1 / 2 by norm_num]
      exact e _ (by norm_num)
    · exact absurd rfl hdiff
  rw [hhyp] at hsum
  rw [← hsum]
  unfold rayLength tracerGeom
  rw [h1, Option.getD_some, List.map_map]
  rfl

/-- **C140** (refutation for the code): one projection at 45 degrees that cuts a corner of the only
pixel.  From every initial value but the right one the errors of `sirt` grow beyond all bounds. -/
theorem sirt_corner_diverges {z x0 : ℝ} (hne : x0 ≠ z) :
    ∃ (center : ℝ) (x : Nat → Mem ℝ), (∀ k, sirt ⟨1, 1, 1, 1⟩
        (tracerGeom 1 1 1 (fun _ => center) fun _ => Real.pi / 4)
        (project ⟨1, 1, 1, 1⟩ (tracerGeom 1 1 1 (fun _ => center) fun _ => Real.pi / 4)
          (fun _ => z) zeros) k (fun _ => x0) = some (x k)) ∧
      Tendsto (fun k => |x k 0 - z|) atTop atTop := by
  have hg := tracer_geomOk 1 1 1 1 1 (fun _ => cornerCenter) fun _ => Real.pi / 4
  have ho := tracer_geomOnce 1 1 1 1 1 (fun _ => cornerCenter) (fun _ => Real.pi / 4)
    (fun _ _ => clear_quarter) 0 Nat.zero_lt_one 0 Nat.zero_lt_one 0 Nat.zero_lt_one
  have hlo : 0 < √(2 : ℝ) := Real.sqrt_pos.mpr (by norm_num)
  have hhi : √2 ≤ (15 : ℝ) / 10 := Real.sqrt_le_iff.mpr (by norm_num)
  obtain ⟨x, h1, h2⟩ := sirt_diverges hg ho (by rw [corner_length]; positivity)
    (by rw [corner_length]; linarith) (z := z) (x0 := x0)
    (data := project ⟨1, 1, 1, 1⟩ (tracerGeom 1 1 1 (fun _ => cornerCenter) fun _ => Real.pi / 4)
          (fun _ => z) zeros) (by
      have := project_value ⟨1, 1, 1, 1⟩ (tracerGeom 1 1 1 (fun _ => cornerCenter)
        fun _ => Real.pi / 4) (fun _ => z) zeros (s := 0) (p := 0) (d := 0) Nat.zero_lt_one
        Nat.zero_lt_one Nat.zero_lt_one
      have hi : (⟨1, 1, 1, 1⟩ : Dims).data 0 0 0 = 0 := rfl
      rw [hi] at this
      rw [this]
      simp only [zeros, zero_add, lineSum, rayLength, List.sum_map_mul_left]) hne
  exact ⟨cornerCenter, x, h1, h2⟩

end Tomopy.Iter
