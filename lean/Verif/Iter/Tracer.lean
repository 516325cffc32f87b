import Verif.Iter.Art
import Verif.Sim.Props

/-!
# The iterative methods with the geometry computed by the ray tracer (C34-C36)

No hypothesis on the geometry is left for `osem`, `mlem`, `bart`, `sirt`; for the two statements
about `art` that need every pixel to be charged once, the angles must not be strictly within
`1 / ipi_c` of a coordinate axis (see C30).
-/

namespace Tomopy.Iter

open Tomopy.Ray (ClearOfAxes)

theorem tracer_geomOk (rx rz dx dy dt : Nat) (center theta : Nat → ℝ) :
    GeomOk ⟨dy, dt, dx, rx * rz⟩ (tracerGeom rx rz dx center theta) := fun s _ p _ d _ =>
  Sim.tracerGeom_ok rx rz dx center theta s p d

theorem tracer_geomOnce (rx rz dx dy dt : Nat) (center theta : Nat → ℝ)
    (hc : ∀ p < dt, ClearOfAxes (theta p)) :
    GeomOnce ⟨dy, dt, dx, rx * rz⟩ (tracerGeom rx rz dx center theta) := by
  intro s _ p hp d _
  obtain ⟨segs, _, h1, _, _, _, _, h2⟩ :=
    Ray.rayTrace_spec_partial rx rz dx (center s) (theta p) d (hc p hp)
  obtain ⟨segs', h3, _, h4⟩ := Ray.rayTrace_safe rx rz dx (center s) (theta p) d
  rw [h1, Option.some.injEq] at h3
  subst h3
  unfold tracerGeom Once
  rw [h1, Option.getD_some, List.pairwise_map]
  refine List.Pairwise.imp_of_mem ?_ h2
  intro a b ha hb h e
  have h5 := (h4 a ha).1
  have h6 := (h4 b hb).1
  simp only at e
  exact h (by omega)

/-- **C34** for the code: positive data and image, any angles, centres and blocks. -/
theorem osem_positive_tracer (rx rz : Nat) {dx dy dt : Nat} (center theta : Nat → ℝ)
    {data recon : Mem ℝ} {num_iter nb : Nat} {ind : List Nat} (hb : BlockArgs dt nb ind)
    (hd : PosData ⟨dy, dt, dx, rx * rz⟩ data) (hr : PosImage ⟨dy, dt, dx, rx * rz⟩ recon) :
    ∃ r', osem ⟨dy, dt, dx, rx * rz⟩ (tracerGeom rx rz dx center theta) data num_iter nb ind recon =
      some r' ∧ PosImage ⟨dy, dt, dx, rx * rz⟩ r' :=
  osem_positive (tracer_geomOk rx rz dx dy dt center theta) hd hb hr

/-- **C35** for the code. -/
theorem art_tracer (rx rz dx dy dt : Nat) (center theta : Nat → ℝ)
    (hc : ∀ p < dt, ClearOfAxes (theta p)) {data z : Mem ℝ}
    (hz : Consistent ⟨dy, dt, dx, rx * rz⟩ (fun _ => tracerGeom rx rz dx center theta 0) data z)
    (recon : Mem ℝ) (s : Nat) {k l : Nat} (hkl : k ≤ l) :
    dist2 ⟨dy, dt, dx, rx * rz⟩ s
        (art ⟨dy, dt, dx, rx * rz⟩ (tracerGeom rx rz dx center theta) data l recon) z ≤
      dist2 ⟨dy, dt, dx, rx * rz⟩ s
        (art ⟨dy, dt, dx, rx * rz⟩ (tracerGeom rx rz dx center theta) data k recon) z :=
  art_distance hkl (tracer_geomOk _ _ _ _ _ _ _) (tracer_geomOnce _ _ _ _ _ _ _ hc) hz recon s

/-- **C36** for the code: the projections of an image, computed by the projector slice by slice
with the same centre, are consistent with it; `bart` leaves it unchanged. -/
theorem bart_projection_fixed (rx rz : Nat) {dx dy dt : Nat} (c : ℝ) (theta : Nat → ℝ)
    {recon : Mem ℝ} {num_iter nb : Nat} {ind : List Nat} (hb : BlockArgs dt nb ind) :
    ∃ r', bart ⟨dy, dt, dx, rx * rz⟩ (tracerGeom rx rz dx (fun _ => c) theta)
        (project ⟨dy, dt, dx, rx * rz⟩ (tracerGeom rx rz dx (fun _ => c) theta) recon zeros)
        num_iter nb ind recon = some r' ∧ SameImage ⟨dy, dt, dx, rx * rz⟩ r' recon := by
  apply bart_consistent_fixed (tracer_geomOk rx rz dx dy dt _ theta) hb
  intro s hs p hp d hd _
  rw [project_value _ _ recon zeros hs hp hd]
  simp [zeros, tracerGeom]

/-- The hypothesis on the angles holds e.g. for the angle 0 and a right angle. -/
example : ClearOfAxes 0 ∧ ClearOfAxes (Real.pi / 2) := by
  have hpi : (1 : ℝ) / Ray.ipiC ≤ Real.pi / 2 := by
    have : (1 : ℝ) / Ray.ipiC ≤ 1 := by
      rw [div_le_one Ray.ipiC_pos]; norm_num [Ray.ipiC]
    have := Real.pi_gt_three
    linarith
  constructor
  · intro k
    by_cases h : k = 0
    · left; simp [h]
    · right
      rw [zero_sub, abs_neg, abs_mul, abs_of_pos (show 0 < Real.pi / 2 by positivity)]
      have h1 : (1 : ℝ) ≤ |(k : ℝ)| := by
        rw [← Int.cast_abs]; exact_mod_cast Int.one_le_abs h
      nlinarith [Real.pi_gt_three]
  · intro k
    by_cases h : k = 1
    · left; simp [h]
    · right
      have e : Real.pi / 2 - k * (Real.pi / 2) = ((1 - k : Int) : ℝ) * (Real.pi / 2) := by
        push_cast; ring
      rw [e, abs_mul, abs_of_pos (show 0 < Real.pi / 2 by positivity)]
      have h1 : (1 : ℝ) ≤ |((1 - k : Int) : ℝ)| := by
        rw [← Int.cast_abs]; exact_mod_cast Int.one_le_abs (by omega)
      nlinarith [Real.pi_gt_three]

end Tomopy.Iter
