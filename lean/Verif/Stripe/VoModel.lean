import Verif.Stripe.Sort
import Mathlib.Algebra.BigOperators.Group.Finset.Basic
import Mathlib.Algebra.BigOperators.Intervals
import Mathlib.Algebra.Order.Floor.Ring

/-! Model of the detection and removal of large and dead stripes, source/tomopy/prep/stripe.py:697-974.

Simplifications: `float` is an exact ordered field; a pixel that becomes NaN or infinite through a
division by zero is `none`; fewer than 131072 columns, so that `np.int16` at line 704 does not
overflow; `np.polyfit` solves its least-squares problem exactly; the linear spline of scipy is exact
and an undefined pixel affects only the values interpolated from it; `size` at least 1 and at least
one angle.  In `_rs_large` the order of the pixels of a column divided by 0 is arbitrary (`x / 0 = 0`
in Lean, so they are all tied). -/
set_option linter.unusedSectionVars false

namespace Tomopy.Stripe
open Tomopy.Num

variable {K : Type} [LinearOrder K] [Field K] [IsStrictOrderedRing K] [FloorRing K]

/-- `np.sort(listdata)[::-1]` (stripe.py:702). -/
def sortedDesc (n : Nat) (l : Nat → K) (k : Nat) : K :=
  (sortL ((List.range n).map l)).reverse.getD k 0

/-- `np.polyfit(x, y, 1)` at the points `(k, y k)`, `lo ≤ k < hi` (stripe.py:705-706): slope and
intercept.  Without points numpy raises TypeError; with one point at 0 the scaled matrix contains
NaN and LinAlgError (a ValueError) is raised; with one other point the solution of least norm (after
scaling the columns to norm 1) is returned; otherwise the least-squares line. -/
def polyfit1 (lo hi : Nat) (y : Nat → K) : Except PyErr (K × K) :=
  if hi ≤ lo then .error .type
  else if hi = lo + 1 then
    if lo = 0 then .error .value else .ok (y lo / (2 * lo), y lo / 2)
  else
    let p : K := ((hi - lo : Nat) : K)
    let mx := (∑ k ∈ Finset.Ico lo hi, (k : K)) / p
    let my := (∑ k ∈ Finset.Ico lo hi, y k) / p
    let slope := (∑ k ∈ Finset.Ico lo hi, ((k : K) - mx) * (y k - my))
      / ∑ k ∈ Finset.Ico lo hi, ((k : K) - mx) ^ 2
    .ok (slope, my - slope * mx)

/-- stripe.py:697-719 `_detect_stripe`, on a list of `n` values: the marked entries. -/
def detectStripe (n : Nat) (l : Nat → K) (snr : K) : Except PyErr (Nat → Bool) :=
  let s := sortedDesc n l                                            -- 702
  let ndrop := n / 4                                                 -- 704
  match polyfit1 ndrop (n - ndrop - 1) s with                        -- 705-706
  | .error e => .error e
  | .ok (slope, intercept) =>
    let numt1 := intercept + slope * ((n - 1 : Nat) : K)             -- 707
    let noise := max |numt1 - intercept| (1 / 1000000)               -- 708-709
    let val1 := |s 0 - intercept| / noise                            -- 710
    let val2 := |s (n - 1) - numt1| / noise                          -- 711
    .ok fun i =>
      decide (snr ≤ val1) && decide (intercept + noise * snr / 2 < l i) ||   -- 713-715
      decide (snr ≤ val2) && decide (l i ≤ numt1 - noise * snr / 2)          -- 716-718

/-- `binary_dilation(listmask, iterations=1)` (stripe.py:739, 816, 957) on `n` entries. -/
def dilate (n : Nat) (m : Nat → Bool) (i : Nat) : Bool :=
  m i || (decide (0 < i) && m (i - 1)) || (decide (i + 1 < n) && m (i + 1))

/-- stripe.py:817-818, 961-962: the first two and the last two columns are not marked. -/
def clearEdges (n : Nat) (m : Nat → Bool) (i : Nat) : Bool :=
  m i && decide (2 ≤ i) && decide (i + 2 < n)

/-- `ndrop` (stripe.py:726-728, 944-947). -/
def nDrop (ratio : K) (nrow : Nat) : Nat := ⌊1 / 2 * max 0 (min ratio (4 / 5)) * (nrow : K)⌋.toNat

/-- The mean over the middle rows of an image of sorted columns (stripe.py:731-732, 950-951). -/
def trimmedMean (nrow nd : Nat) (S : Nat → Nat → K) (i : Nat) : K :=
  (∑ r ∈ Finset.Ico nd (nrow - nd), S i r) / ((nrow - nd - nd : Nat) : K)

/-- `np.divide(a, b, out=ones, where=b != 0)` (stripe.py:733-736, 811-814, 952-955). -/
def ratioOrOne (a b : K) : K := if b = 0 then 1 else a / b

/-- `listfact` of stripe.py:729-736 and 948-955. -/
def listFact (nrow ncol size : Nat) (ratio : K) (X : Nat → Nat → K) (i : Nat) : K :=
  let nd := nDrop ratio nrow
  let S := sortedImage nrow X
  let M := medianCols ncol size S
  ratioOrOne (trimmedMean nrow nd S i) (trimmedMean nrow nd M i)

/-- `sinogram / matfact` (stripe.py:742-743, 959-960) at a pixel. -/
def normPixel (norm : Bool) (f x : K) : Option K :=
  if norm then (if f = 0 then none else some (x / f)) else some x

/-- stripe.py:722-752 `_rs_large`.  The sorted values at line 747 are overwritten by the smoothed
ones of the sinogram before normalisation. -/
def rsLarge (ag : Argsort K) (nrow ncol : Nat) (snr : K) (size : Nat) (ratio : K) (norm : Bool)
    (X : Nat → Nat → K) : Except PyErr (Nat → Nat → Option K) :=
  let fact := listFact nrow ncol size ratio X                                      -- 726-736
  match detectStripe ncol fact snr with                                            -- 738
  | .error e => .error e
  | .ok m =>
    let mask := dilate ncol m                                                      -- 739
    let X1 := fun t i => if norm then X t i / fact i else X t i                    -- 742-743
    let smooth := medianCols ncol size (sortedImage nrow X)
    let corrected := rsSortWith ag (fun _ => smooth) nrow X1                       -- 744-749
    .ok fun t i => if mask i then some (corrected t i) else normPixel norm (fact i) (X t i) -- 750-752

/-- The nearest kept column on the left of column `i` (a knot of the spline, stripe.py:819-823,
963-967). -/
def keptLeft (mask : Nat → Bool) : Nat → Nat
  | 0 => 0
  | i + 1 => if mask i then keptLeft mask i else i

/-- The nearest kept column on the right of column `i`, looking at `fuel` columns (stripe.py:819-823,
963-967). -/
def keptRight (mask : Nat → Bool) : Nat → Nat → Nat
  | 0, i => i
  | fuel + 1, i => if mask (i + 1) then keptRight mask fuel (i + 1) else i + 1

/-- Value of the linear spline through the kept columns at the marked column `i` (stripe.py:822-829,
966-973); the rows are knots too, so rows do not mix. -/
def gapValue (ncol : Nat) (mask : Nat → Bool) (Z : Nat → Option K) (i : Nat) : Option K :=
  let a := keptLeft mask i
  let b := keptRight mask ncol i
  match Z a, Z b with
  | some u, some v => some (u + (v - u) * (((i - a : Nat) : K) / ((b - a : Nat) : K)))
  | _, _ => none

/-- The marked columns filled in (stripe.py:819-829, 963-973).  scipy refuses a single row. -/
def fillGaps (nrow ncol : Nat) (mask : Nat → Bool) (Z : Nat → Nat → Option K) :
    Except PyErr (Nat → Nat → Option K) :=
  if nrow ≤ 1 then .error .value
  else .ok fun t i => if mask i then gapValue ncol mask (Z t) i else Z t i

/-- stripe.py:940-974 `_rs_interpolation`. -/
def rsInterpolation (nrow ncol : Nat) (snr : K) (size : Nat) (ratio : K) (norm : Bool)
    (X : Nat → Nat → K) : Except PyErr (Nat → Nat → Option K) :=
  let fact := listFact nrow ncol size ratio X                                      -- 944-955
  match detectStripe ncol fact snr with                                            -- 956
  | .error e => .error e
  | .ok m =>
    fillGaps nrow ncol (clearEdges ncol (dilate ncol m))                           -- 957, 961-962
      fun t i => normPixel norm (fact i) (X t i)                                   -- 959-960

/-- `uniform_filter1d(·, 10)` along the angles, mode 'reflect' (stripe.py:808). -/
def uniform10 (nrow : Nat) (X : Nat → Nat → K) (t i : Nat) : K :=
  (∑ a ∈ Finset.range 10, X (Corr.reflect nrow ((t : Int) + a - 5)) i) / 10

/-- `listdiff` (stripe.py:809). -/
def listDiff (nrow : Nat) (X : Nat → Nat → K) (i : Nat) : K :=
  ∑ t ∈ Finset.range nrow, |X t i - uniform10 nrow X t i|

/-- `listfact` of stripe.py:808-814. -/
def deadFact (nrow ncol size : Nat) (X : Nat → Nat → K) (i : Nat) : K :=
  ratioOrOne (listDiff nrow X i) (medianCols ncol size (fun c _ => listDiff nrow X c) i 0)

/-- The first half of `_rs_dead`, up to the residual stripes (stripe.py:806-829). -/
def rsDeadFill (nrow ncol : Nat) (snr : K) (size : Nat) (X : Nat → Nat → K) :
    Except PyErr (Nat → Nat → Option K) :=
  match detectStripe ncol (deadFact nrow ncol size X) snr with                     -- 815
  | .error e => .error e
  | .ok m => fillGaps nrow ncol (clearEdges ncol (dilate ncol m)) fun t i => some (X t i)

/-- stripe.py:802-833 `_rs_dead`. -/
def rsDead (ag : Argsort K) (nrow ncol : Nat) (snr : K) (size : Nat) (norm : Bool)
    (X : Nat → Nat → K) : Except PyErr (Nat → Nat → Option K) :=
  match rsDeadFill nrow ncol snr size X with
  | .error e => .error e
  | .ok Z =>
    if norm then rsLarge ag nrow ncol snr size (1 / 10) true fun t i => (Z t i).getD 0  -- 831-832
    else .ok Z

/-- stripe.py:886-892: one sinogram of `_remove_all_stripe`.  A sinogram with an undefined pixel is
undefined after the sorting filter, which is not modelled on such data. -/
def rsAll (ag : Argsort K) (nrow ncol : Nat) (snr : K) (la sm dim : Nat) (X : Nat → Nat → K) :
    Except PyErr (Nat → Nat → Option K) :=
  match rsDead ag nrow ncol snr la true X with
  | .error e => .error e
  | .ok Z => .ok fun t i =>
    if ∀ t' < nrow, ∀ i' < ncol, (Z t' i').isSome then
      some (rsSort ag nrow ncol sm dim (fun t i => (Z t i).getD 0) t i)
    else none

end Tomopy.Stripe
