import Verif.Recon.RoundTrip
import Verif.Sim.Border

/-! # Reconstruction on a grid larger than the object (C173)

`recon` takes the width of the detector as the default size of the grid, so the projections of an object are
usually reconstructed on a larger grid than that of the object. -/

set_option linter.unusedSectionVars false

namespace Tomopy.Recon

open Tomopy.Par Tomopy.Mproc Tomopy.Iter Tomopy.Sim
open Tomopy.Ray (ClearOfAxes ClearOfBorder)
open Filter Topology

/-- **C173 (partial)**: the projections of an object, reconstructed with `art` on a grid that is `2p` and `2q` pixels
larger, converge to images with the projections of the padded object; of all such images they are nearest to the
initial ones. -/
theorem roundTrip_art_larger_partial {cpu : Nat} {debug : Bool} {oy ox oz p q : Nat} {obj obj' : Nat → Mem ℝ}
    {theta : List ℝ} {center : Option (List ℝ)} {emission : Bool} {pad : Pad} {sino : Bool} {so sc : Bool}
    {ncore nchunk : Option Nat} {sim data : Arr3 ℝ} {dx : Nat} (hr : 0 < ox + oz)
    (h : Project cpu debug oy ox oz obj theta center emission pad sino so sc ncore nchunk sim)
    (hc : center = none ∨ ∃ c, center = some [c]) (hp : Prepared emission sim data)
    (hw : projectWidth ox oz pad = .ok dx) (hpad : ∀ s < oy, ZeroPadded p q ox oz (obj s) (obj' s))
    (hclear : ∀ j < theta.length, ClearOfAxes (theta.getD j 0))
    (hborder : ∀ j < theta.length, ∀ d < dx,
      ClearOfBorder ox oz (Ray.rayY dx d (Ray.mov dx ((getCenter oy dx center).getD 0 0))) (Real.sin (theta.getD j 0))
        (Real.cos (theta.getD j 0))) (init : Nat → Mem ℝ) :
    ∃ lim : Nat → Mem ℝ,
      (∀ s < oy, SameProjections (ox + 2 * p) (oz + 2 * q) dx theta ((getCenter oy dx center).getD 0 0) (lim s)
        (obj' s)) ∧
      (∀ s < oy, ∀ y, SameProjections (ox + 2 * p) (oz + 2 * q) dx theta ((getCenter oy dx center).getD 0 0) y
          (obj' s) →
        imageDist2 ((ox + 2 * p) * (oz + 2 * q)) (init s) y =
          imageDist2 ((ox + 2 * p) * (oz + 2 * q)) (init s) (lim s) +
            imageDist2 ((ox + 2 * p) * (oz + 2 * q)) (lim s) y) ∧
      ∀ result : Nat → Nat → Option (Mem ℝ),
        (∀ k, ∃ cpu' ncore' nchunk' limit', 1 ≤ cpu' ∧
          ReconRun cpu' (fun D g data recon => some (art D g data k recon)) (ox + 2 * p) (oz + 2 * q) data theta
            center sino init ncore' nchunk' limit' (result k)) →
        ∀ s < oy, ∃ r : Nat → Mem ℝ, (∀ k, result k s = some (r k)) ∧
          ∀ n < (ox + 2 * p) * (oz + 2 * q), Tendsto (fun k => r k n) atTop (𝓝 (lim s n)) := by
  obtain ⟨dx', hw', e0, e1, e2, hval⟩ := prepared_value h hc hp
  have e : dx' = dx := by
    rw [hw] at hw'
    exact (Except.ok.inj hw').symm
  subst e
  refine recon_art_limit hc e0 e1 e2 (fun s hs j hj d hd => ?_) hclear init
  rw [hval s hs j hj d hd]
  exact (rayIntegral_padded hr (hpad s hs) (hclear j hj) rfl (hborder j hj d hd)).symm

/-- A concrete case: the hypotheses on the rays hold for the default centre, the width `oz + 2k` and angle 0. -/
example (oy ox oz k : Nat) (hoy : 0 < oy) : ∀ j < ([0] : List ℝ).length, ∀ d < oz + 2 * k,
    ClearOfBorder ox oz (Ray.rayY (oz + 2 * k) d
      (Ray.mov (oz + 2 * k) ((getCenter oy (oz + 2 * k) (none : Option (List ℝ))).getD 0 0)))
      (Real.sin (([0] : List ℝ).getD j 0)) (Real.cos (([0] : List ℝ).getD j 0)) := by
  intro j hj d hd
  rw [getCenter_default _ _ _ hoy, Ray.rayY_default]
  exact (raysClear_zero ox oz k j hj).2 d hd

end Tomopy.Recon
