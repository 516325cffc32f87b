import Verif.Ring.Model
import Verif.Extern.Model

/-!
# How the arguments of `remove_ring` reach the C function

`Verif.Ring.Model` takes numbers.  Here the arguments are Python values; they are converted in the
tasks of the thread pool (source/tomopy/util/extern/misc.py:93-112), whose futures are dropped
(source/tomopy/misc/corr.py:845-848).
-/

set_option linter.unusedSectionVars false

namespace Tomopy.Ring

open Tomopy.Extern (PyVal CTy CVal Proto enter)

section
variable {K : Type} [Field K] [LinearOrder K] [IsStrictOrderedRing K] [FloorRing K]

/-- The conversions of `c_remove_ring` in their order (source/tomopy/util/extern/misc.py:98-111). -/
def ringTypes : List CTy :=
  [.floatP, .float, .float, .int, .int, .int, .float, .float, .float, .int, .int, .int, .int, .int]

/-- `c_remove_ring(rec, *args)` up to the entry of the C function
(source/tomopy/util/extern/misc.py:93-112): `rec` has `len` slices; `args[10]` raises IndexError if
there are fewer, more are not looked at.  Simplification: with too few arguments nothing is converted
before the IndexError. -/
def ringConvert (rec : PyVal K) (len : Nat) (args : List (PyVal K)) :
    Except PyErr (List (CVal K)) :=
  if args.length < 11 then .error .index
  else (ringTypes.zip (rec :: args.take 11 ++ [.int 0, .int len])).mapM fun a =>
    Extern.conv (fun z : Int => (z : K)) a.1 a.2

/-- The parameters of the C function (source/libtomo/misc/remove_ring.c:604-607). -/
def ringProto : Proto :=
  [(.floatP, "data"), (.float, "center_x"), (.float, "center_y"), (.int, "dx"), (.int, "dy"),
   (.int, "dz"), (.float, "thresh_max"), (.float, "thresh_min"), (.float, "threshold"),
   (.int, "angular_min"), (.int, "ring_width"), (.int, "int_mode"), (.int, "istart"),
   (.int, "iend")]

/-- What the C function works with: parameters, size of a slice, first slice and end
(source/libtomo/misc/remove_ring.c:604-607). -/
structure RingCall (K : Type) where
  args : RingArgs K
  dx : Int
  dy : Int
  istart : Int
  iend : Int

/-- A `float` parameter by name (source/libtomo/misc/remove_ring.c:604-607). -/
def fParam (e : String → Option (CVal K)) (n : String) : Option K :=
  match e n with
  | some (.float x) => some x
  | _ => none

/-- An `int` parameter by name (source/libtomo/misc/remove_ring.c:604-607). -/
def iParam (e : String → Option (CVal K)) (n : String) : Option Int :=
  match e n with
  | some (.int z) => some z
  | _ => none

/-- Entry of `remove_ring` (source/libtomo/misc/remove_ring.c:604-607).  `int_mode` is 1 for
REFLECT and 0 for WRAP (lines 51-52, 394, 443); an angle or width below zero is not modelled (`none`). -/
def ringEnter (vs : List (CVal K)) : Option (RingCall K) := do
  let e ← enter ringProto vs
  let cx ← fParam e "center_x"
  let cy ← fParam e "center_y"
  let dx ← iParam e "dx"
  let dy ← iParam e "dy"
  let tmax ← fParam e "thresh_max"
  let tmin ← fParam e "thresh_min"
  let thr ← fParam e "threshold"
  let ang ← iParam e "angular_min"
  let rw ← iParam e "ring_width"
  let im ← iParam e "int_mode"
  let i0 ← iParam e "istart"
  let i1 ← iParam e "iend"
  if ang < 0 ∨ rw < 0 then none
  else some ⟨⟨cx, cy, tmax, tmin, thr, ang.toNat, rw.toNat, if im = 1 then .reflect else .wrap⟩,
    dx, dy, i0, i1⟩

/-- The task of one chunk (source/tomopy/misc/corr.py:847-848): it works in place on the slices
`istart .. iend - 1` of the chunk (source/libtomo/misc/remove_ring.c:620-627).  What it raises stays
in the future, which nobody asks for.  A slice is `none` after undefined behaviour, also if the size
passed is not that of the slices. -/
def ringTask (tg : Trig K) (n h w : Nat) (args : List (PyVal K)) (o : Nat → Option (Img K))
    (slc : Mproc.Slc) : Nat → Option (Img K) :=
  let ix := slc.indices n
  match ringConvert (.arr 0 [ix.length, h, w]) ix.length args with
  | .error _ => o
  | .ok vs =>
    match ringEnter vs with
    | none => fun s => if s ∈ ix then none else o s
    | some c => fun s =>
      if s ∈ (ix.take c.iend.toNat).drop c.istart.toNat then
        if c.dx = w ∧ c.dy = h then (o s).bind (removeRingSlice tg c.args) else none
      else o s

/-- `0 <= theta_min < 180` (source/tomopy/misc/corr.py:826). -/
def thetaOk : PyVal K → Except PyErr Bool
  | .int z => .ok (decide (0 ≤ z ∧ z < 180))
  | .float x => .ok (decide (0 ≤ x ∧ x < 180))
  | .arr _ _ => .error .value
  | _ => .error .type

/-- `int_mode.lower()` and what follows (source/tomopy/misc/corr.py:819-824). -/
def modeNum : PyVal K → Except PyErr Int
  | .str s =>
    if s.toLower = "wrap" then .ok 0 else if s.toLower = "reflect" then .ok 1 else .error .value
  | _ => .error .attribute

/-- `if center_x is None: center_x = (dx - 1.0) / 2.0` (source/tomopy/misc/corr.py:814-817). -/
def centreArg (n : Nat) : PyVal K → PyVal K
  | .none => .float (((n : K) - 1) / 2)
  | v => v

/-- The arguments of `remove_ring` besides the arrays (source/tomopy/misc/corr.py:751-764). -/
structure RingPy (K : Type) where
  centerX : PyVal K
  centerY : PyVal K
  thresh : PyVal K
  threshMax : PyVal K
  threshMin : PyVal K
  thetaMin : PyVal K
  rwidth : PyVal K
  intMode : PyVal K

/-- `remove_ring` (source/tomopy/misc/corr.py:805-849) on `n` slices of `h` rows and `w` columns.
`ncore` and `nchunk` as in `removeRing`. -/
def removeRingPy (cpu n : Nat) (tg : Trig K) (p : RingPy K) (ncore nchunk : Option Nat) (h w : Nat)
    (rec : Nat → Img K) (out : Option (Nat → Img K)) :
    Except PyErr (Nat → Option (Img K)) := do
  let out0 := out.getD rec                                                      -- 807-810
  let cx := centreArg w p.centerX                                               -- 814-817
  let cy := centreArg h p.centerY
  let im ← modeNum p.intMode                                                    -- 819-824
  let ok ← thetaOk p.thetaMin
  if ¬ ok then throw .value                                                     -- 826-827
  let args := [cx, cy, .int w, .int h, .int n, p.threshMax, p.threshMin, p.thresh, p.thetaMin,
    p.rwidth, .int im]                                                          -- 829-841
  let (nc, nk) ← Mproc.getNcoreNchunk cpu n ncore nchunk
  if nc = 0 then throw .value                                                   -- 845
  if nk = 0 ∧ 0 < n then throw .value                                           -- 846
  return (Mproc.chunkSlices n nk).foldl (ringTask tg n h w args) fun s => some (out0 s)

end

end Tomopy.Ring
