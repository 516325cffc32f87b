import Verif.Base
import Verif.Mproc.Model
import Mathlib.Algebra.Order.Floor.Ring
import Mathlib.Data.Rat.Floor

/-!
# Model of `source/tomopy/recon/wrappers.py`: ASTRA and UFO

The toolboxes are parameters.  (`lprec` is in `Verif.Gpu`.)
-/

set_option linter.unusedSectionVars false

namespace Tomopy.Wrap

section Astra

variable {K : Type} [Field K] [LinearOrder K] [IsStrictOrderedRing K] [FloorRing K]

/-- `int(np.round(x))` (`source/tomopy/recon/wrappers.py:193`): to the nearest integer, halves to the
even one. -/
def npRound (x : K) : Int :=
  let f := ⌊x⌋
  if x - f < 1 / 2 then f
  else if 1 / 2 < x - f then f + 1
  else if f % 2 = 0 then f else f + 1

/-- `np.roll(sino, shft)` without an axis: the flattened sinogram is rolled
(`source/tomopy/recon/wrappers.py:195`). -/
def rollFlat (nang ndet : Nat) (s : Int) (a : Nat → Nat → K) (r c : Nat) : K :=
  let q := (((r * ndet + c : Nat) : Int) - s) % ((nang * ndet : Nat) : Int)
  a (q.toNat / ndet) (q.toNat % ndet)

/-- The sinogram handed to ASTRA by the methods on the CPU
(`source/tomopy/recon/wrappers.py:193-203`), for a shift `s`. -/
def shiftSino (nang ndet : Nat) (s : Int) (a : Nat → Nat → K) (r c : Nat) : K :=
  if s = 0 then a r c
  else
    let l := if s < 0 then 0 else s
    let e := if (ndet : Int) + s > ndet then (ndet : Int) else ndet + s
    if (c : Int) < pyBound ndet l ∨ pyBound ndet e ≤ c then 0 else rollFlat nang ndet s a r c

/-- The shift of a slice (`source/tomopy/recon/wrappers.py:193`). -/
def shiftOf (ndet : Nat) (center : K) : Int := npRound ((ndet : K) / 2 - center)

/-- What ASTRA is given for a slice, and returns: the GPU index, the offset of the detector in the
geometry, the sinogram and the volume it starts from (`source/tomopy/recon/wrappers.py:204-211`). -/
abbrev Toolbox (K Img : Type) := Option Nat → K → (Nat → Nat → K) → Img → Except PyErr Img

/-- `astra_rec` for one slice (`source/tomopy/recon/wrappers.py:183-215`): with `cuda` the centre goes
into the geometry, else the sinogram is shifted. -/
def astraSlice {Img : Type} (tb : Toolbox K Img) (cuda : Bool) (gpu : Option Nat) (nang ndet : Nat)
    (sino : Nat → Nat → K) (center : K) (start : Img) : Except PyErr Img :=
  if cuda then tb gpu (center - (ndet : K) / 2) sino start
  else tb gpu 0 (shiftSino nang ndet (shiftOf ndet center) sino) start

/-- `astra_rec` on the slices `ids` of the volume (`source/tomopy/recon/wrappers.py:183`): what has been
written before an exception stays. -/
def astraBlock {Img : Type} (tb : Toolbox K Img) (cuda : Bool) (gpu : Option Nat) (nang ndet : Nat)
    (tomo : Nat → Nat → Nat → K) (center : Nat → K) :
    List Nat → (Nat → Img) → (Nat → Img) × Option PyErr
  | [], rec => (rec, none)
  | i :: ids, rec =>
    match astraSlice tb cuda gpu nang ndet (tomo i) (center i) (rec i) with
    | .error e => (rec, some e)
    | .ok im => astraBlock tb cuda gpu nang ndet tomo center ids (Function.update rec i im)

/-- The reconstruction part of `astra` (`source/tomopy/recon/wrappers.py:150-163`).  One thread for each
GPU works on a block of the slices; what a thread raises is dropped with its future.  The blocks
are disjoint (C01), so the order in which the threads run is immaterial. -/
def astra {Img : Type} (tb : Toolbox K Img) (cpu : Nat) (cuda : Bool) (gpus : Option (List Nat))
    (n nang ndet : Nat) (tomo : Nat → Nat → Nat → K) (center : Nat → K) (rec : Nat → Img) :
    Except PyErr (Nat → Img) :=
  match cuda, gpus with
  | true, some gl =>
    match Mproc.getNcoreSlices cpu n (some gl.length) none with
    | .error e => .error e
    | .ok (_, slcs) =>
      if gl = [] then .error .value
      else .ok ((gl.zip slcs).foldl (fun r p =>
        (astraBlock tb true (some p.1) nang ndet tomo center (p.2.indices n) r).1) rec)
  | _, _ =>
    match astraBlock tb cuda none nang ndet tomo center (List.range n) rec with
    | (r, none) => .ok r
    | (_, some e) => .error e

end Astra

/-- `if o not in opts: opts[o] = default` (`source/tomopy/recon/wrappers.py:141-142`). -/
def setDefault {V : Type} (o : String → Option V) (d : String × V) : String → Option V :=
  if o d.1 = none then Function.update o d.1 (some d.2) else o

/-- The options of `astra` (`source/tomopy/recon/wrappers.py:136-142`): ValueError without a `method`,
otherwise `num_iter`, `proj_type` and `gpu_list` are set to the defaults where they are missing — in
the dictionary of the caller. -/
def astraOptions {V : Type} (defaults : List (String × V)) (opts : String → Option V) :
    Except PyErr (String → Option V) :=
  if opts "method" = none then .error .value
  else .ok (defaults.foldl setDefault opts)

/-- `int(array.shape[0] / 2 - width / 2)` (`source/tomopy/recon/wrappers.py:236`): `int` rounds
towards zero. -/
def ufoFrom (n width : Nat) : Int := ((n : Int) - width).tdiv 2

/-- `int(array.shape[0] / 2 + width / 2)` (`source/tomopy/recon/wrappers.py:237`). -/
def ufoTo (n width : Nat) : Int := ((n : Int) + width).tdiv 2

/-- `slices[i, :, :] = array[frm:to, frm:to]` for an array of n × m pixels and a slice of
`gx` × `gy` pixels (`source/tomopy/recon/wrappers.py:236-238`): element written at each pixel;
ValueError if the cropped array cannot be broadcast. -/
def ufoCrop {α : Type} (n m width gx gy : Nat) (arr : Nat → Nat → α) :
    Except PyErr (Nat → Nat → α) :=
  let lo := pyBound n (ufoFrom n width)
  let h := (pyBound n (ufoTo n width) - lo).toNat
  let lo' := pyBound m (ufoFrom n width)
  let w := (pyBound m (ufoTo n width) - lo').toNat
  if (h = gx ∨ h = 1) ∧ (w = gy ∨ w = 1) then
    .ok fun y x => arr (lo.toNat + if h = 1 then 0 else y) (lo'.toNat + if w = 1 then 0 else x)
  else .error .value

/-- What `ufo_fbp` and `ufo_dfi` pass on of the angles and the centres
(`source/tomopy/recon/wrappers.py:253-254, 294-295`): the centre of the first slice and the first
step; IndexError if there are none. -/
def ufoParams {K : Type} [Field K] (center theta : List K) : Except PyErr (K × K) :=
  match theta, center with
  | t0 :: t1 :: _, c :: _ => .ok (c, t1 - t0)
  | _, _ => .error .index

end Tomopy.Wrap
