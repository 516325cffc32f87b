import Verif.Corr.Model
import Verif.Fl.Model

/-!
# The four median kernels and their buffer

`medfilt3D_float`, `medfilt2D_float`, `medfilt3D_uint16`, `medfilt2D_uint16` with the buffer
`ValVec`, whose length comes from `powf`.
-/

set_option linter.unusedSectionVars false

namespace Tomopy.Corr
open Tomopy.Num

/-- `sizefilter_total = (int) (powf(diameter, n))` for `n = 2, 3`
(`source/libtomo/misc/median_filt3d.c:296,308,323,369,384`); `powf` is the function of the C
library, and the conversion of the `int` argument to `float` is exact below `2²⁴`. -/
def sizeTotal (powf : ℚ → Nat → ℚ) (r n : Nat) : ℤ := Ray.cTrunc (powf (2 * r + 1) n)

/-- `index1` of `medfilt2D_*` (`source/libtomo/misc/median_filt3d.c:145-160,253-268`). -/
def windowIdx2 (r dX dY i j : Nat) : List Nat :=
  (offs r).flatMap fun im => (offs r).map fun jm => nb dY j jm * dX + nb dX i im

/-- The weights of the inpainter, `Gauss_weights[counter]` for all offsets, into a buffer of
`(int) (powf(W_fullsize, n))` elements, `n = 2` for one slice and 3 otherwise
(`source/libtomo/misc/inpainter.c:577-622`): whether a write goes past the end. -/
def gaussOverflow (powf : ℚ → Nat → ℚ) (W dZ : Nat) : Bool :=
  if dZ = 1 then decide ((sizeTotal powf W 2).toNat < ((offs W).flatMap fun _ => offs W).length)
  else decide ((sizeTotal powf W 3).toNat <
    ((offs W).flatMap fun _ => (offs W).flatMap fun _ => offs W).length)

section
variable {K : Type} [LinearOrder K] [Field K] [IsStrictOrderedRing K]
variable {V : Type} [LinearOrder V] [Zero V]

/-- The part common to the kernels (`source/libtomo/misc/median_filt3d.c:83-123,141-176,196-231,
249-282`): `ValVec` of `n` zeros is filled with the window `vs`, sorted, and the element `n / 2`
is stored.  `none`: a write past the end of `ValVec`; `some none`: nothing is stored. -/
def vecDecide (n : Nat) (thr : K) (dif : V → V → K) (vs : List V) (x : V) : Option (Option V) :=
  if n < vs.length then none
  else
    let med := (sortL (vs ++ List.replicate (n - vs.length) 0)).getD (n / 2) 0
    some (if thr = 0 then some med else if dif x med ≥ thr then some med else none)

/-- `medfilt3D_float` (`source/libtomo/misc/median_filt3d.c:68-124`). -/
def med3F (powf : ℚ → Nat → ℚ) (r dX dY dZ : Nat) (thr : K) (inp : Nat → K) (i j k : Nat) :
    Option (Option K) :=
  vecDecide (sizeTotal powf r 3).toNat thr (fun a b => |a - b|)
    ((windowIdx r dX dY dZ i j k).map inp) (inp (idx3 dX dY i j k))

/-- `medfilt2D_float` (`source/libtomo/misc/median_filt3d.c:126-177`). -/
def med2F (powf : ℚ → Nat → ℚ) (r dX dY : Nat) (thr : K) (inp : Nat → K) (i j : Nat) :
    Option (Option K) :=
  vecDecide (sizeTotal powf r 2).toNat thr (fun a b => |a - b|)
    ((windowIdx2 r dX dY i j).map inp) (inp (j * dX + i))

/-- `abs(Input[index] - ValVec[midval])` of two `unsigned short` as an `int`, compared with the
`float` threshold (`source/libtomo/misc/median_filt3d.c:226,278`). -/
def difU (a b : Nat) : K := ((|(a : ℤ) - b| : ℤ) : K)

/-- `medfilt3D_uint16` (`source/libtomo/misc/median_filt3d.c:179-232`). -/
def med3U (powf : ℚ → Nat → ℚ) (r dX dY dZ : Nat) (thr : K) (inp : Nat → Nat) (i j k : Nat) :
    Option (Option Nat) :=
  vecDecide (sizeTotal powf r 3).toNat thr difU
    ((windowIdx r dX dY dZ i j k).map inp) (inp (idx3 dX dY i j k))

/-- `medfilt2D_uint16` (`source/libtomo/misc/median_filt3d.c:234-283`). -/
def med2U (powf : ℚ → Nat → ℚ) (r dX dY : Nat) (thr : K) (inp : Nat → Nat) (i j : Nat) :
    Option (Option Nat) :=
  vecDecide (sizeTotal powf r 2).toNat thr difU
    ((windowIdx2 r dX dY i j).map inp) (inp (j * dX + i))

/-- The pixel of `medianfilter_main_float` (`source/libtomo/misc/median_filt3d.c:283-340`) that is
computed for `(i, j, k)`: the 2D kernel if `dimZ == 0`. -/
def medMainF (powf : ℚ → Nat → ℚ) (r dX dY dZ : Nat) (thr : K) (inp : Nat → K) (i j k : Nat) :
    Option (Option K) :=
  if dZ = 0 then med2F powf r dX dY thr inp i j else med3F powf r dX dY dZ thr inp i j k

/-- The pixel of `medianfilter_main_uint16` (`source/libtomo/misc/median_filt3d.c:342-401`). -/
def medMainU (powf : ℚ → Nat → ℚ) (r dX dY dZ : Nat) (thr : K) (inp : Nat → Nat) (i j k : Nat) :
    Option (Option Nat) :=
  if dZ = 0 then med2U powf r dX dY thr inp i j else med3U powf r dX dY dZ thr inp i j k

end

/-- The checks and arguments of `median_filter3d` and `remove_outlier3d`
(`source/tomopy/misc/corr.py:392-399,453-460`): `(radius, dx, dy, dz)`. -/
def medCall (shape : List Nat) (size : Int) : Except PyErr (Nat × Nat × Nat × Nat) :=
  match shape with
  | [dz, dy, dx] => if dz = 0 ∨ dy = 0 ∨ dx = 0 then .error .value
      else .ok (halfSize size, dx, dy, dz)
  | _ => .error .value

end Tomopy.Corr
