import Verif.Base
import Verif.Corr.Model
import Verif.Sim.NoiseModel
import Mathlib.Analysis.SpecialFunctions.Log.Base

/-! Model of source/tomopy/recon/rotation.py `find_center` and `mask_empty_slice`.

Simplifications: exact arithmetic; `recon` and the optimizer of scipy enter as arbitrary
functions. -/

set_option linter.unusedSectionVars false

namespace Tomopy.Center

open Tomopy.Recon

/-- rotation.py:166-171 `_adjust_hist_min`. -/
noncomputable def adjustHistMin (v : ℝ) : ℝ := if v < 0 then 2 * v else 1 / 2 * v

/-- rotation.py:174-179 `_adjust_hist_max`. -/
noncomputable def adjustHistMax (v : ℝ) : ℝ := if v < 0 then 1 / 2 * v else 2 * v

/-- `rec.min()` (rotation.py:162): the negative of the greatest negated element; numpy raises
ValueError for an array without elements. -/
noncomputable def minElem (a : Arr3 ℝ) : Except PyErr ℝ :=
  (Sim.maxElem { a with get := fun i j k => -a.get i j k }).map fun m => -m

/-- The mask (rotation.py:158-159, 195-196): `circ_mask(rec, axis=0)` with its defaults, ratio 1
and value 0; only the constant `True` switches it on. -/
noncomputable def masked (mask : Bool) (a : Arr3 ℝ) : Arr3 ℝ :=
  if mask then Corr.circMask 0 1 0 a else a

/-- rotation.py:150-162 `_adjust_hist_limits`; `rec` is the reconstruction of the slice with the
default centre. -/
noncomputable def adjustHistLimits (rec : Arr3 ℝ) (mask : Bool) : Except PyErr (ℝ × ℝ) := do
  let lo ← minElem (masked mask rec)
  let hi ← Sim.maxElem (masked mask rec)
  .ok (adjustHistMin lo, adjustHistMax hi)

/-- Range used by `np.histogram` (rotation.py:198): ValueError if reversed, widened by one half on
both sides if empty. -/
noncomputable def histRange (lo hi : ℝ) : Except PyErr (ℝ × ℝ) :=
  if hi < lo then .error .value
  else if lo = hi then .ok (lo - 1 / 2, hi + 1 / 2)
  else .ok (lo, hi)

/-- Bin of a value in `np.histogram` (rotation.py:198): equal bins, the last one closed; values
outside of the range are in none. -/
noncomputable def histBin (bins : Nat) (lo hi x : ℝ) : Option Nat :=
  if lo ≤ x ∧ x ≤ hi then some (min (bins - 1) ⌊(x - lo) / (hi - lo) * bins⌋₊) else none

/-- Counts of `np.histogram(xs, bins, range=[lo, hi])` for a range already adjusted
(rotation.py:198). -/
noncomputable def counts (bins : Nat) (lo hi : ℝ) (xs : List ℝ) : List Nat :=
  (List.range bins).map fun b => xs.countP fun x => decide (histBin bins lo hi x = some b)

/-- rotation.py:199-200: the value from counts and number of pixels. -/
noncomputable def entropyOf (size : Nat) (hist : List Nat) : ℝ :=
  -((hist.map fun n : Nat => ((n : ℝ) / size + 1 / 10 ^ 12) *
    Real.logb 2 ((n : ℝ) / size + 1 / 10 ^ 12)).sum)

/-- rotation.py:198-200: the cost of an image given as the list of its pixels. -/
noncomputable def entropyCost (xs : List ℝ) (hmin hmax : ℝ) : Except PyErr ℝ := do
  let (lo, hi) ← histRange hmin hmax
  .ok (entropyOf xs.length (counts 64 lo hi xs))

/-- rotation.py:182-203 `_find_center_cost`; `rec center` is the reconstruction with that centre.
`ratio` is an argument of the function. -/
noncomputable def findCenterCost (rec : ℝ → Arr3 ℝ) (hmin hmax : ℝ) (mask : Bool) (_ratio : ℝ)
    (center : ℝ) : Except PyErr ℝ :=
  entropyCost (Sim.elems (masked mask (rec center))) hmin hmax

/-- rotation.py:82-147 `find_center`.  `tomo i` are the sinograms, `dy` their number;
`rec sino center` reconstructs (the default centre of `recon` is `dx / 2`).  The slice is
`tomo[ind:ind + 1]`, empty for `ind = -1` and outside of the array; an empty selection makes
`recon` raise (`none` in `rec` is not needed: ValueError of `rec.min()`).  `minimize f init` is
`scipy.optimize.minimize(method='Nelder-Mead')`. -/
noncomputable def findCenter (minimize : (ℝ → Except PyErr ℝ) → ℝ → Except PyErr ℝ) {S : Type}
    (dx : Nat) (tomo : List S) (rec : S → ℝ → Arr3 ℝ) (ind : Option Int) (init : Option ℝ)
    (mask : Bool) (ratio : ℝ) : Except PyErr ℝ := do
  let ind : Int := ind.getD (tomo.length / 2 : Nat)
  let init := init.getD (dx / 2 : Nat)
  match pySlice tomo (some ind) (some (ind + 1)) with
  | [s] =>
    let (hmin, hmax) ← adjustHistLimits (rec s ((dx : ℝ) / 2)) mask
    minimize (findCenterCost (rec s) hmin hmax mask ratio) init
  | _ => .error .value

/-! ### `find_center_pc` -/

/-- A projection: row, column (rotation.py:391). -/
abbrev Proj := Nat → Int → ℝ

/-- rotation.py:426 `np.fliplr` of an image with `n` columns. -/
def flipCols (n : Nat) (p : Proj) : Proj := fun r x => p r ((n : Int) - 1 - x)

/-- rotation.py:391-435 `find_center_pc`.  `shift s p` is `ndimage.shift(p, [0, s])` and
`pcc ref mov` the column shift found by `skimage.registration.phase_cross_correlation`; both enter
as arbitrary functions. -/
noncomputable def findCenterPc (shift : ℝ → Proj → Proj) (pcc : Proj → Proj → ℝ) (n : Nat)
    (proj1 proj2 : Proj) (guess : Option ℝ) : ℝ :=
  let imgshift := match guess with | none => 0 | some g => g - ((n : ℝ) - 1) / 2
  let p1 := shift (-imgshift) proj1
  let p2 := flipCols n (shift (-imgshift) proj2)
  ((n : ℝ) + pcc p1 p2 - 1) / 2 + imgshift

/-- `ndimage.shift(p, [0, s], mode='constant', cval=0)` for an integer shift: no interpolation,
what leaves the `n` columns is lost, what enters is zero (rotation.py:422-423). -/
def shiftCols (n : Nat) (s : Int) (p : Proj) : Proj := fun r x =>
  if 0 ≤ x ∧ x < n ∧ 0 ≤ x - s ∧ x - s < n then p r (x - s) else 0

/-! ### `mask_empty_slice` -/

/-- Standard deviation squared of `n` values, `np.std(x)**2` (rotation.py:606-608). -/
noncomputable def variance (n : Nat) (x : Nat → ℝ) : ℝ :=
  ((List.range n).map fun i => (x i - ((List.range n).map x).sum / n) ^ 2).sum / n

/-- Greatest of `n` values; for no value numpy raises ValueError, here it is zero
(rotation.py:601, 604). -/
noncomputable def maxOf (n : Nat) (x : Nat → ℝ) : ℝ :=
  match (List.range n).map x with
  | [] => 0
  | y :: ys => ys.foldl max y

/-- rotation.py:600 `np.sum(tomo, axis=0)`: sum over the projections. -/
noncomputable def projsSum (tomo : Arr3 ℝ) (y x : Nat) : ℝ :=
  ((List.range tomo.d0).map fun p => tomo.get p y x).sum

/-- Greatest element of the sum (rotation.py:601). -/
noncomputable def projsMax (tomo : Arr3 ℝ) : ℝ :=
  maxOf tomo.d1 fun y => maxOf tomo.d2 fun x => projsSum tomo y x

/-- rotation.py:600-601: the normalised sum; `none` for the division by zero, NaN or infinity. -/
noncomputable def normSum (tomo : Arr3 ℝ) : Option (Nat → Nat → ℝ) :=
  if projsMax tomo = 0 then none else some fun y x => projsSum tomo y x / projsMax tomo

/-- rotation.py:603-604: its sum over the layers, normalised. -/
noncomputable def profile (tomo : Arr3 ℝ) (s : Nat → Nat → ℝ) : Option (Nat → ℝ) :=
  let col := fun x => ((List.range tomo.d1).map fun y => s y x).sum
  if maxOf tomo.d2 col = 0 then none else some fun x => col x / maxOf tomo.d2 col

/-- rotation.py:581-610 `mask_empty_slice` for a floating array (`/=` raises for integers).
A comparison with NaN is false. -/
noncomputable def maskEmptySlice (tomo : Arr3 ℝ) (threshold : ℝ) : List Bool :=
  (List.range tomo.d1).map fun y =>
    match normSum tomo with
    | none => false
    | some s =>
      match profile tomo s with
      | none => false
      | some q => decide (Real.sqrt (variance tomo.d2 (s y)) <
          Real.sqrt (variance tomo.d2 q) * threshold)

end Tomopy.Center
