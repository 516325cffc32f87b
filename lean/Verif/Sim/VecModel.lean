import Verif.Iter.Vector
import Verif.Sim.Model

/-!
# Projection of vector fields (`project2`, `project3`)
-/

set_option linter.unusedSectionVars false

namespace Tomopy.Sim

open Tomopy.Iter Tomopy.Recon

section Generic

variable {K : Type*} [Field K] [LinearOrder K] [IsStrictOrderedRing K]

/-- `project2` (axis 0) and `project3` in C (`source/libtomo/recon/project.c:139-240,242-348`):
`g p d` are the segments of the ray (made with `center[0]` for all slices, lines 171 and 275),
`v p d` its direction, `R c` the volume of component `c`.  Simplifications: `axis` is a natural
number (negative values behave like values above 2); reads outside the volumes return the value of
`R` there (`Iter.vecAddr_cube_partial`, `Iter.vecAddr_out_of_bounds` say when they happen). -/
def vecProjectC (D : Dims) (ox oz axis : Nat) (g : Nat → Nat → Segs K) (v : Nat → Nat → K × K)
    (R : Nat → Mem K) (data : Mem K) : Mem K :=
  if D.dy = 0 ∨ D.dt = 0 ∨ D.dx = 0 then data
  else (List.range D.dt).foldl (fun m p => (List.range D.dx).foldl (fun m d =>
    (List.range D.dy).foldl (fun m s => vecSimdata D ox oz axis s p d (g p d) (v p d) R m) m) m) data

end Generic

/-- The directions of the rays (`source/libtomo/recon/project.c:185-195,289-299`). -/
noncomputable def vecDirs (ox oz dx : Nat) (c : ℝ) (theta : List ℝ) (p d : Nat) : ℝ × ℝ :=
  vecDir ox oz (Ray.rayY dx d (Ray.mov dx c)) (Real.sin (theta.getD p 0)) (Real.cos (theta.getD p 0))

/-- `project3` (`source/tomopy/sim/project.py:402-467`).  `obj c` is component `c` as a flat array.
Simplifications: all components have the shape `(oy, ox, oz)` (only that of `objx` is read); the
array of centres is not empty. -/
noncomputable def project3 (oy ox oz : Nat) (obj : Nat → Mem ℝ) (theta : List ℝ)
    (center : Option (List ℝ)) (emission : Bool) (pad : Pad) (sinogramOrder : Bool) (axis : Nat) :
    Except PyErr (Arr3 ℝ) := do
  let dx ← projectWidth ox oz pad
  let c := (getCenter oy dx center).getD 0 0
  let D : Dims := ⟨oy, theta.length, dx, ox * oz⟩
  let tomo := vecProjectC D ox oz axis
    (tracerGeom ox oz dx (fun _ => c) (fun p => theta.getD p 0) 0) (vecDirs ox oz dx c theta) obj zeros
  pure (projectPost emission sinogramOrder ⟨oy, theta.length, dx, fun s p d => tomo (D.data s p d)⟩)

/-- `project2` (`source/tomopy/sim/project.py:337-399`): its argument `axis` is not used; the C
function `project2` does what `project3` does along axis 0 (`source/libtomo/recon/project.c:225-231`,
`source/libtomo/recon/utils.c:374-389,403-410`). -/
noncomputable def project2 (oy ox oz : Nat) (objx objy : Mem ℝ) (theta : List ℝ)
    (center : Option (List ℝ)) (emission : Bool) (pad : Pad) (sinogramOrder : Bool) (_axis : Nat) :
    Except PyErr (Arr3 ℝ) :=
  project3 oy ox oz (fun c => if c = 0 then objx else if c = 1 then objy else zeros) theta center
    emission pad sinogramOrder 0

end Tomopy.Sim
