import Verif.Corr.Med2Model

/-!
# `qsort` and its comparison functions

In the other modules `qsort` returns the sorted array.  Here it is any function of the C library, called
with the comparison functions of the sources, and floats may be NaN (`none`).
-/

set_option linter.unusedSectionVars false

namespace Tomopy.Corr
open Tomopy.Num

/-- `floatcomp` (`source/libtomo/misc/median_filt3d.c:54-59`, `source/libtomo/prep/stripes_detect3d.c:212-218`)
and `floatcomp1` (`source/libtomo/misc/inpainter.c:56-62`): comparisons with NaN are false. -/
def cmpF {K : Type} [LinearOrder K] (a b : Option K) : Int :=
  if ltF a b then -1 else if ltF b a then 1 else 0
where
  /-- IEEE `a < b` (`source/libtomo/misc/median_filt3d.c:56,58`). -/
  ltF : Option K → Option K → Bool
    | some x, some y => decide (x < y)
    | _, _ => false

/-- `uint16comp` (`source/libtomo/misc/median_filt3d.c:60-65`). -/
def cmpU (a b : Nat) : Int := if a < b then -1 else if b < a then 1 else 0

/-- The end of the median kernels with the `qsort` of some C library
(`source/libtomo/misc/median_filt3d.c:83-123,141-176,196-231,249-282`): `far x med` is the test
`fabsf(Input[index] - ValVec[midval]) >= mu_threshold`. -/
def vecDecideQ {V : Type} (Q : List V → List V) (z : V) (n : Nat) (plain : Bool) (far : V → V → Bool)
    (vs : List V) (x : V) : Option (Option V) :=
  if n < vs.length then none
  else
    let med := (Q (vs ++ List.replicate (n - vs.length) z)).getD (n / 2) z
    some (if plain then some med else if far x med then some med else none)

variable {K : Type} [LinearOrder K] [Field K] [IsStrictOrderedRing K]

/-- `fabsf(a - b) >= mu_threshold` (`source/libtomo/misc/median_filt3d.c:120,168`): false for NaN. -/
def farF (thr : K) : Option K → Option K → Bool
  | some a, some b => decide (|a - b| ≥ thr)
  | _, _ => false

/-- The pixel `(i, j, k)` of `medianfilter_main_float` (`source/libtomo/misc/median_filt3d.c:283-340`) on
data with NaN, with the `qsort` of some C library; `some none` means that nothing is stored. -/
def medMainFQ (Q : List (Option K) → List (Option K)) (powf : ℚ → Nat → ℚ) (r dX dY dZ : Nat) (thr : K)
    (inp : Nat → Option K) (i j k : Nat) : Option (Option (Option K)) :=
  if dZ = 0 then
    vecDecideQ Q (some 0) (sizeTotal powf r 2).toNat (decide (thr = 0)) (farF thr)
      ((windowIdx2 r dX dY i j).map inp) (inp (j * dX + i))
  else
    vecDecideQ Q (some 0) (sizeTotal powf r 3).toNat (decide (thr = 0)) (farF thr)
      ((windowIdx r dX dY dZ i j k).map inp) (inp (idx3 dX dY i j k))

/-- The pixel `(i, j, k)` of `medianfilter_main_uint16` (`source/libtomo/misc/median_filt3d.c:342-401`) with
the `qsort` of some C library. -/
def medMainUQ (Q : List Nat → List Nat) (powf : ℚ → Nat → ℚ) (r dX dY dZ : Nat) (thr : K)
    (inp : Nat → Nat) (i j k : Nat) : Option (Option Nat) :=
  if dZ = 0 then
    vecDecideQ Q 0 (sizeTotal powf r 2).toNat (decide (thr = 0)) (fun a b => decide (difU (K := K) a b ≥ thr))
      ((windowIdx2 r dX dY i j).map inp) (inp (j * dX + i))
  else
    vecDecideQ Q 0 (sizeTotal powf r 3).toNat (decide (thr = 0)) (fun a b => decide (difU (K := K) a b ≥ thr))
      ((windowIdx r dX dY dZ i j k).map inp) (inp (idx3 dX dY i j k))

end Tomopy.Corr
