import Verif.Recon.Model
import Verif.Base
import Mathlib.Analysis.SpecialFunctions.Trigonometric.Basic

/-!
# The noise functions and `angles` of `tomopy.sim.project`

Random numbers are parameters: an array of draws of the shape the code asks for.  Floats are exact.
A function that may modify its argument returns the pair of its result and the contents of the
argument after the call.
-/

set_option linter.unusedSectionVars false

namespace Tomopy.Sim

open Tomopy.Recon

/-- Draws of `np.random` for a given shape (`source/tomopy/sim/project.py:131,172,203,232`). -/
abbrev Draws (K : Type) := Nat → Nat → Nat → K

/-- What a call leaves behind: the array returned and the argument afterwards
(`source/tomopy/sim/project.py:110-238`). -/
structure Outcome (K : Type) where
  result : Arr3 K
  arg : Arr3 K

section Generic

variable {K : Type} [Field K] [LinearOrder K] [IsStrictOrderedRing K]

/-- All elements in memory order (`source/tomopy/sim/project.py:128,205`: `tomo.max()` reads
them). -/
def elems (a : Arr3 K) : List K :=
  (List.range a.d0).flatMap fun i => (List.range a.d1).flatMap fun j =>
    (List.range a.d2).map fun k => a.get i j k

/-- `tomo.max()` (`source/tomopy/sim/project.py:128,205`); numpy raises ValueError for an array
without elements. -/
def maxElem (a : Arr3 K) : Except PyErr K :=
  match elems a with
  | [] => .error .value
  | x :: xs => .ok (xs.foldl max x)

/-- `add_gaussian` (`source/tomopy/sim/project.py:110-133`).  `z` are the draws of
`np.random.randn`.  Line 131 adds in place: for an ndarray `as_ndarray` (line 126) returns the
argument itself, so the argument is the result.  `floating` tells whether the element type is
floating; `+=` of a float array to integers raises `UFuncTypeError`, a TypeError. -/
def addGaussian (floating : Bool) (tomo : Arr3 K) (mean : K) (std : Option K) (z : Draws K) :
    Except PyErr (Outcome K) := do
  let s ← match std with
    | some s => pure s
    | none => do
      let m ← maxElem tomo
      pure (m * (5 / 100))
  if floating then
    let out : Arr3 K := { tomo with get := fun i j k => tomo.get i j k + (s * z i j k + mean) }
    .ok ⟨out, out⟩
  else .error .type

/-- `add_poisson` (`source/tomopy/sim/project.py:136-150`).  `draw lam i j k` is the Poisson draw
with rate `lam` at that place; numpy raises ValueError if a rate is negative. -/
def addPoisson (tomo : Arr3 K) (draw : K → Nat → Nat → Nat → Nat) :
    Except PyErr (Arr3 Nat) :=
  if (elems tomo).any (fun x => decide (x < 0)) then .error .value
  else .ok ⟨tomo.d0, tomo.d1, tomo.d2, fun i j k => draw (tomo.get i j k) i j k⟩

/-- `add_rings` (`source/tomopy/sim/project.py:153-180`): the draws `z` have shape
`(1, d1, d2)`; `np.random.normal(loc=1, scale=std)` is `1 + std * z` and raises ValueError for a
negative scale. -/
def addRings (tomo : Arr3 K) (std : K) (z : Nat → Nat → K) : Except PyErr (Outcome K) :=
  if std < 0 then .error .value
  else .ok ⟨{ tomo with get := fun i j k => tomo.get i j k * (1 + std * z j k) }, tomo⟩

/-- `add_salt_pepper` (`source/tomopy/sim/project.py:183-208`): `u` are the draws of
`np.random.rand`.  Line 207 assigns into the argument (see `addGaussian`). -/
def addSaltPepper (tomo : Arr3 K) (prob : K) (val : Option K) (u : Draws K) :
    Except PyErr (Outcome K) := do
  let v ← match val with
    | some v => pure v
    | none => maxElem tomo
  let out : Arr3 K :=
    { tomo with get := fun i j k => if u i j k < prob then v else tomo.get i j k }
  .ok ⟨out, out⟩

/-- `add_zingers` (`source/tomopy/sim/project.py:211-238`): `u` are the draws of
`np.random.uniform(0, 1)`. -/
def addZingers (tomo : Arr3 K) (f sat : K) (u : Draws K) : Outcome K :=
  ⟨{ tomo with get := fun i j k => if u i j k ≤ f then sat else tomo.get i j k }, tomo⟩

/-- `np.linspace(a, b, n)` (`source/tomopy/sim/project.py:105,261`); one sample is the start. -/
def linspace (a b : K) (n : Nat) : List K :=
  (List.range n).map fun i : Nat => if n = 1 then a else a + (i : K) * ((b - a) / ((n : K) - 1))

/-- `_get_magnification` (`source/tomopy/sim/project.py:550-567`). -/
def getMagnification (r1 r2 : K) : Except PyErr K :=
  if r1 = 0 then .error .zeroDivision else .ok ((r1 + r2) / r1)

end Generic

/-- The drift of projection `i` of `n` (`source/tomopy/sim/project.py:103-105`). -/
noncomputable def drift (amp period mean : ℝ) (n i : Nat) : ℝ :=
  amp * Real.sin (2 * Real.pi / period * i) + mean + (linspace (0 : ℝ) 1 n).getD i 0

/-- `add_drift` (`source/tomopy/sim/project.py:80-107`); `period` is a Python number, so zero
raises ZeroDivisionError in line 104. -/
noncomputable def addDrift (tomo : Arr3 ℝ) (amp period mean : ℝ) : Except PyErr (Outcome ℝ) :=
  if period = 0 then .error .zeroDivision
  else .ok ⟨{ tomo with get := fun i j k => drift amp period mean tomo.d0 i * tomo.get i j k },
    tomo⟩

/-- `angles` (`source/tomopy/sim/project.py:241-261`); `np.linspace` raises ValueError for a
negative number of samples. -/
noncomputable def angles (nang : Int) (ang1 ang2 : ℝ) : Except PyErr (List ℝ) :=
  if nang < 0 then .error .value
  else .ok (linspace (ang1 * Real.pi / 180) (ang2 * Real.pi / 180) nang.toNat)

end Tomopy.Sim
