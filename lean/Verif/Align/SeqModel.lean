import Verif.Sim.NoiseModel
import Mathlib.Analysis.Real.Sqrt

/-!
# Alignment of projections: `scale`, `blur_edges`, `add_jitter`, `add_noise`, `shift_images`,
`align_seq`, `align_joint` of `tomopy.prep.alignment`

Floats are exact.  `none` stands for an array of NaN (division of zeros by zero).  Reconstruction
followed by projection, the registration of scikit-image and `tf.warp` are parameters; of `tf.warp`
it is known what it does for whole translations.  Options `save` and `fdir` (files) and the text
printed by `debug` are not modelled.
-/

set_option linter.unusedSectionVars false

namespace Tomopy.Align

open Tomopy.Recon Tomopy.Sim

section Generic

variable {K : Type} [Field K] [LinearOrder K] [IsStrictOrderedRing K]

/-- What `scale` leaves behind: the array returned, the factor, and the argument afterwards
(`source/tomopy/prep/alignment.py:460-479`). -/
structure ScaleOut (K : Type) where
  prj : Arr3 K
  scl : K
  arg : Arr3 K

/-- `max(abs(prj.max()), abs(prj.min()))` (`source/tomopy/prep/alignment.py:477`); numpy raises
ValueError for an array without elements. -/
def scaleFactor (a : Arr3 K) : Except PyErr K :=
  match elems a with
  | [] => .error .value
  | x :: xs => .ok (max |xs.foldl max x| |xs.foldl min x|)

/-- `scale` (`source/tomopy/prep/alignment.py:460-479`): line 478 divides in place, so the argument
is the result; for integers it raises `UFuncTypeError`, a TypeError. -/
def scale (floating : Bool) (a : Arr3 K) : Except PyErr (Option (ScaleOut K)) := do
  let scl ← scaleFactor a
  if ! floating then .error .type
  else if scl = 0 then .ok none
  else
    let out : Arr3 K := { a with get := fun m r c => a.get m r c / scl }
    .ok (some ⟨out, scl, out⟩)

/-- `tf.warp(img, tf.SimilarityTransform(translation=(tx, ty)), order)`
(`source/tomopy/prep/alignment.py:199-200,342-343,427-428,530-531`): the output at row `r` and column
`c` is the input at row `r + ty` and column `c + tx`, and zero outside of the image.  For whole
translations this is exact; for others it is an interpolation that is left open. -/
structure Warp (K : Type) [Ring K] where
  run : Nat → Nat → K × K → (Nat → Nat → K) → Nat → Nat → K
  whole : ∀ (dy dz : Nat) (tx ty : Int) (f : Nat → Nat → K) (r c : Nat),
    run dy dz ((tx : K), (ty : K)) f r c =
      if 0 ≤ r + ty ∧ r + ty < dy ∧ 0 ≤ c + tx ∧ c + tx < dz
        then f (r + ty).toNat (c + tx).toNat else 0

/-- The loop of `shift_images` and `add_jitter` over the projections
(`source/tomopy/prep/alignment.py:426-428,529-531`). -/
def warpAll (W : Warp K) (t : Nat → K × K) (a : Arr3 K) : Arr3 K :=
  { a with get := fun m => W.run a.d1 a.d2 (t m) (a.get m) }

/-- `prj *= scl` (`source/tomopy/prep/alignment.py:212,358,431,534`). -/
def rescale (scl : K) (a : Arr3 K) : Arr3 K := { a with get := fun m r c => a.get m r c * scl }

/-- `shift_images` (`source/tomopy/prep/alignment.py:517-536`); everything happens in the argument,
so it is the result.  `sx[m]` raises IndexError if the list is too short. -/
def shiftImages (W : Warp K) (floating : Bool) (a : Arr3 K) (sx sy : List K) :
    Except PyErr (Option (Outcome K)) := do
  match ← scale floating a with
  | none => .ok none
  | some s =>
    if sx.length < a.d0 ∨ sy.length < a.d0 then .error .index
    else
      let out := rescale s.scl (warpAll W (fun m => (sy.getD m 0, sx.getD m 0)) s.prj)
      .ok (some ⟨out, out⟩)

/-- What `add_jitter` returns, and the argument afterwards
(`source/tomopy/prep/alignment.py:392-432`). -/
structure JitterOut (K : Type) where
  prj : Arr3 K
  jx : List K
  jy : List K
  arg : Arr3 K

/-- `add_jitter` (`source/tomopy/prep/alignment.py:392-432`); `jitter` are the draws of
`np.random.uniform(low, high, size=(n, 2))`. -/
def addJitter (W : Warp K) (floating : Bool) (a : Arr3 K) (jitter : Nat → K × K) :
    Except PyErr (Option (JitterOut K)) := do
  match ← scale floating a with
  | none => .ok none
  | some s =>
    let out := rescale s.scl (warpAll W jitter s.prj)
    .ok (some ⟨out, (List.range a.d0).map fun m => (jitter m).1,
      (List.range a.d0).map fun m => (jitter m).2, out⟩)

/-- `add_noise` (`source/tomopy/prep/alignment.py:435-457`); `z` are standard normal draws; numpy
raises ValueError for a negative scale. -/
def addNoise (a : Arr3 K) (ratio : K) (z : Draws K) : Except PyErr (Outcome K) := do
  let mx ← maxElem a
  let std := mx * ratio
  if std < 0 then .error .value
  else .ok ⟨{ a with get := fun m r c => a.get m r c + std * z m r c }, a⟩

/-- `np.pad(prj, ((0, 0), (pad[1], pad[1]), (pad[0], pad[0])), mode='constant')`: a new array
(`source/tomopy/prep/alignment.py:166-167,293-294`). -/
def padZero (pad : Nat × Nat) (a : Arr3 K) : Arr3 K :=
  ⟨a.d0, a.d1 + 2 * pad.2, a.d2 + 2 * pad.1, fun m r c =>
    if pad.2 ≤ r ∧ r < a.d1 + pad.2 ∧ pad.1 ≤ c ∧ c < a.d2 + pad.1
      then a.get m (r - pad.2) (c - pad.1) else 0⟩

/-- The parts that are parameters: `recon` (with or without `init_recon`), `project`, `blur_edges` or
nothing, `phase_cross_correlation` (row shift, column shift) and `tf.warp`
(`source/tomopy/prep/alignment.py:172-193,313-336`). -/
structure Tools (K : Type) [Ring K] where
  recon : Option (Arr3 K) → Arr3 K → Arr3 K
  project : Arr3 K → Arr3 K
  blur : Arr3 K → Arr3 K
  register : (Nat → Nat → K) → (Nat → Nat → K) → K × K
  warp : Warp K

/-- The shifts found for the projections `prj` and the simulated ones
(`source/tomopy/prep/alignment.py:178-193,320-336`). -/
def shifts (T : Tools K) (prj sim : Arr3 K) (m : Nat) : K × K :=
  T.register ((T.blur prj).get m) ((T.blur sim).get m)

/-- State of the loops: projections worked on, accumulated shifts and, for `align_joint`, the
reconstruction (`source/tomopy/prep/alignment.py:157-200,284-343`). -/
structure AlignSt (K : Type) where
  prj : Arr3 K
  sx : Nat → K
  sy : Nat → K
  vol : Arr3 K

/-- One iteration of `align_seq` (`source/tomopy/prep/alignment.py:170-200`): every projection is
registered with its simulation and moved. -/
def seqIter (T : Tools K) (st : AlignSt K) : AlignSt K :=
  let rec_ := T.recon none st.prj
  let shift := shifts T st.prj (T.project rec_)
  ⟨warpAll T.warp (fun m => ((shift m).2, (shift m).1)) st.prj,
    fun m => st.sx m + (shift m).1, fun m => st.sy m + (shift m).2, rec_⟩

/-- What an alignment returns, and the argument afterwards
(`source/tomopy/prep/alignment.py:89-213,216-359`). -/
structure AlignOut (K : Type) where
  prj : Arr3 K
  sx : Nat → K
  sy : Nat → K
  arg : Arr3 K

/-- `rec = 1e-12 * np.ones(...)` (`source/tomopy/prep/alignment.py:297`). -/
def initRec (prj : Arr3 K) : Arr3 K := ⟨prj.d1, prj.d2, prj.d2, fun _ _ _ => 1 / 10 ^ 12⟩

/-- State before the loop (`source/tomopy/prep/alignment.py:160-167,287-304`). -/
def startSt (pad : Nat × Nat) (prj : Arr3 K) : AlignSt K :=
  ⟨padZero pad prj, fun _ => 0, fun _ => 0, initRec (padZero pad prj)⟩

/-- `align_seq` (`source/tomopy/prep/alignment.py:89-213`), without `conv`. -/
def alignSeq (T : Tools K) (floating : Bool) (a : Arr3 K) (iters : Nat) (pad : Nat × Nat) :
    Except PyErr (Option (AlignOut K)) := do
  match ← scale floating a with
  | none => .ok none
  | some s =>
    let st := (seqIter T)^[iters] (startSt pad s.prj)
    .ok (some ⟨rescale s.scl st.prj, st.sx, st.sy, s.arg⟩)

/-- One iteration of `align_joint` (`source/tomopy/prep/alignment.py:307-343`): `prj_copy` (here
`st.prj`) is replaced by the projections `prj` moved by the accumulated shifts. -/
def jointIter (T : Tools K) (prj : Arr3 K) (st : AlignSt K) : AlignSt K :=
  let rec_ := T.recon (some st.vol) st.prj
  let shift := shifts T st.prj (T.project rec_)
  let sx := fun m => st.sx m + (shift m).1
  let sy := fun m => st.sy m + (shift m).2
  ⟨warpAll T.warp (fun m => (sy m, sx m)) prj, sx, sy, rec_⟩

/-- `align_joint` (`source/tomopy/prep/alignment.py:216-359`), without `conv`.  Line 358 rescales and
line 359 returns `prj`; the aligned projections are in `prj_copy`, the second component here. -/
def alignJoint (T : Tools K) (floating : Bool) (a : Arr3 K) (iters : Nat) (pad : Nat × Nat) :
    Except PyErr (Option (AlignOut K × Arr3 K)) := do
  match ← scale floating a with
  | none => .ok none
  | some s =>
    let prj := padZero pad s.prj
    let st := (jointIter T prj)^[iters] (startSt pad s.prj)
    .ok (some (⟨rescale s.scl prj, st.sx, st.sy, s.arg⟩, st.prj))

/-- `conv` (`source/tomopy/prep/alignment.py:163,202-204,290,345-348`): one number per iteration,
filled in only when `debug` is set; `err n` is the norm of the shifts of iteration `n`. -/
def convArr (debug : Bool) (iters : Nat) (err : Nat → K) : List K :=
  (List.range iters).map fun n => if debug then err n else 0

end Generic

/-! ### `blur_edges` -/

noncomputable section

/-- `rad` (`source/tomopy/prep/alignment.py:504-505`). -/
def blurRad (dy dz r c : Nat) : ℝ := √(((r : ℝ) - dy / 2) ^ 2 + ((c : ℝ) - dz / 2) ^ 2)

/-- All values of `rad` (`source/tomopy/prep/alignment.py:507`). -/
def blurRads (dy dz : Nat) : List ℝ :=
  (List.range dy).flatMap fun r => (List.range dz).map fun c => blurRad dy dz r c

/-- `rad.max()` (`source/tomopy/prep/alignment.py:507`); an image without pixels raises. -/
def blurRadMax (dy dz : Nat) : Except PyErr ℝ :=
  match blurRads dy dz with
  | [] => .error .value
  | x :: xs => .ok (xs.foldl max x)

/-- `mask` (`source/tomopy/prep/alignment.py:506-511`) for the largest radius `R`; `none` is 0/0. -/
def blurMask (dy dz : Nat) (R low high : ℝ) (r c : Nat) : Option ℝ :=
  let rad := blurRad dy dz r c
  let rmin := low * R
  let rmax := high * R
  if rmin ≤ rad ∧ rad ≤ rmax then
    if rmax - rmin = 0 then none else some ((rmax - rad) / (rmax - rmin))
  else if rmax < rad then some 0
  else if rad < rmin then some 1
  else some 0

/-- `blur_edges` (`source/tomopy/prep/alignment.py:482-514`): a copy is multiplied by the mask, so the
argument stays.  For integers `_prj *= mask` raises `UFuncTypeError`, a TypeError. -/
def blurEdges (floating : Bool) (a : Arr3 ℝ) (low high : ℝ) : Except PyErr (Arr3 (Option ℝ) × Arr3 ℝ) := do
  let R ← blurRadMax a.d1 a.d2
  if ! floating then .error .type
  else .ok (⟨a.d0, a.d1, a.d2, fun m r c => (blurMask a.d1 a.d2 R low high r c).map fun w => a.get m r c * w⟩, a)

end

end Tomopy.Align
