import Verif.Base
import Verif.Phase.Model
import Mathlib.Algebra.Order.Floor.Ring
import Mathlib.Algebra.Order.Field.Basic

/-! Model of source/tomopy/recon/rotation.py `find_center_vo`.

Simplifications: exact arithmetic (`float32`/`float64` in the code); `ndimage.gaussian_filter`,
`ndimage.interpolation.shift` and the values of `downsample` (see Verif/Morph) enter as arbitrary
functions; `ncol // 2 + smin` does not overflow. -/

set_option linter.unusedSectionVars false

namespace Tomopy.Center

variable {K : Type} [Field K] [LinearOrder K] [IsStrictOrderedRing K] [FloorRing K]

/-! ### Numpy helpers -/

/-- `np.clip(x, lo, hi)` (rotation.py:308-309, 339-341). -/
def clip (x lo hi : K) : K := min (max x lo) hi

/-- `np.int16(x)` of a number: truncation toward zero, then 16 bits (rotation.py:308-309). -/
def int16 (x : K) : Int := ((if 0 ≤ x then ⌊x⌋ else ⌈x⌉) + 32768) % 65536 - 32768

/-- `np.arange(start, stop, step)` for positive `step` (rotation.py:314, 342). -/
def arange (start stop step : K) : List K :=
  (List.range ⌈(stop - start) / step⌉₊).map fun i : Nat => start + i * step

/-- `np.argmin`, first minimum (rotation.py:322, 351): position `p` of the best value `b` so far,
next position `i`. -/
def argminFrom (b : K) (p i : Nat) : List K → Nat
  | [] => p
  | x :: l => if x < b then argminFrom x i (i + 1) l else argminFrom b p (i + 1) l

/-- `np.argmin` (rotation.py:322, 351); it raises on an empty array. -/
def argmin : List K → Except PyErr Nat
  | [] => .error .value
  | x :: l => .ok (argminFrom x 0 1 l)

/-! ### Candidates -/

/-- rotation.py:307 `cen_fliplr`. -/
def cenFliplr (ncol : Nat) : K := ((ncol : K) - 1) / 2

/-- rotation.py:308-309: the search limits as clipped and rounded. -/
def limit (ncol : Nat) (s : K) : Int :=
  int16 (clip (s + cenFliplr ncol) 0 ((ncol : K) - 1) - cenFliplr ncol)

/-- rotation.py:308-314 `list_cor` of the coarse search. -/
def coarseList (ncol : Nat) (smin smax : K) : List K :=
  arange (((ncol / 2 : Nat) : K) + limit ncol smin) (((ncol / 2 : Nat) : K) + limit ncol smax + 1 / 2)
    (1 / 2)

/-- rotation.py:317, 346 `list_shift` of a candidate. -/
def shiftOf (ncol : Nat) (cor : K) : K := 2 * (cor - cenFliplr ncol)

/-- rotation.py:302-330 `_search_coarse`; `metric` is `_calculate_metric` as a function of the
shift, distributed one element at a time (see `metrics_distributed`). -/
def searchCoarse (metric : K → K) (ncol : Nat) (smin smax : K) : Except PyErr K := do
  let l := coarseList ncol smin smax
  let p ← argmin (l.map fun cor => metric (shiftOf ncol cor))
  match l[p]? with
  | some cor => .ok cor
  | none => .error .index

/-- rotation.py:339 the fine search radius. -/
def fineRad (ncol : Nat) (srad : K) : K := clip |srad| 1 ((ncol : K) / 4)

/-- rotation.py:340 the step of the fine search. -/
def fineStep (ncol : Nat) (srad step : K) : K := clip |step| (1 / 10) (fineRad ncol srad)

/-- rotation.py:341 the centre of the fine search. -/
def fineCen (ncol : Nat) (srad init : K) : K :=
  clip init (fineRad ncol srad) ((ncol : K) - fineRad ncol srad - 1)

/-- rotation.py:339-342 `list_cor` of the fine search. -/
def fineList (ncol : Nat) (srad step init : K) : List K :=
  (arange (-fineRad ncol srad) (fineRad ncol srad + fineStep ncol srad step)
    (fineStep ncol srad step)).map fun x => fineCen ncol srad init + x

/-- rotation.py:333-352 `_search_fine`. -/
def searchFine (metric : K → K) (ncol : Nat) (srad step init : K) : Except PyErr K := do
  let l := fineList ncol srad step init
  let p ← argmin (l.map fun cor => metric (shiftOf ncol cor))
  match l[p]? with
  | some cor => .ok cor
  | none => .error .index

/-! ### The metric -/

section Sino

variable {α : Type}

/-- `np.roll(a, s, axis=1)` with `n` columns (rotation.py:281). -/
def roll (n : Nat) (s : Int) (a : Nat → Nat → α) : Nat → Nat → α := fun r c =>
  a r (((c : Int) - s) % n).toNat

/-- rotation.py:279-285: the second sinogram shifted by whole columns, columns that moved in
replaced by those of the third. -/
def shiftInt (n : Nat) (s : Int) (sino2 sino3 : Nat → Nat → α) : Nat → Nat → α := fun r c =>
  if 0 ≤ s then (if (c : Int) < pyBound n s then sino3 r c else roll n s sino2 r c)
  else (if pyBound n s ≤ (c : Int) then sino3 r c else roll n s sino2 r c)

/-- rotation.py:288-296: a fractional shift; `spline` is `ndimage.interpolation.shift`. -/
def shiftFrac (n : Nat) (s : K) (spline : K → (Nat → Nat → α) → Nat → Nat → α)
    (sino2 sino3 : Nat → Nat → α) : Nat → Nat → α := fun r c =>
  if 0 ≤ s then (if (c : Int) < pyBound n ⌈s⌉ then sino3 r c else spline s sino2 r c)
  else (if pyBound n ⌊s⌋ ≤ (c : Int) then sino3 r c else spline s sino2 r c)

/-- rotation.py:278-296: the shifted sinogram of a candidate. -/
def shifted (n : Nat) (s : K) (spline : K → (Nat → Nat → α) → Nat → Nat → α)
    (sino2 sino3 : Nat → Nat → α) : Nat → Nat → α :=
  if |s - ⌊s⌋| = 0 then shiftInt n ⌊s⌋ sino2 sino3 else shiftFrac n s spline sino2 sino3

/-- `np.fliplr` (rotation.py:312, 343). -/
def fliplr (ncol : Nat) (a : Nat → Nat → α) : Nat → Nat → α := fun r c => a r (ncol - 1 - c)

/-- `np.flipud` (rotation.py:313, 344). -/
def flipud (nrow : Nat) (a : Nat → Nat → α) : Nat → Nat → α := fun r c => a (nrow - 1 - r) c

/-- `np.vstack` of two sinograms (rotation.py:286, 296). -/
def vstack (nrow : Nat) (a b : Nat → Nat → α) : Nat → Nat → α := fun r c =>
  if r < nrow then a r c else b (r - nrow) c

end Sino

/-! ### Mask -/

/-- rotation.py:377 `cen_row` and 378 `cen_col`: `ceil(n / 2) - 1`. -/
def cenIdx (n : Nat) : Int := ((n + 1) / 2 : Nat) - 1

/-- rotation.py:379 `drop`, limited to `ceil(0.05 nrow)`. -/
def dropRows (nrow : Nat) (drop : Int) : Int := min drop ((nrow + 19) / 20 : Nat)

noncomputable section

/-- rotation.py:375-376, 382: half width of the wedge in row `i`.  The conversion to 16 bits of lines 377-382 is left
out: it changes half widths and centres above 32767. -/
def wedge (nrow ncol : Nat) (radius : ℝ) (i : Nat) : Int :=
  ⌈((((i : Int) - cenIdx nrow : Int) : ℝ) * (((nrow : ℝ) - 1) / (nrow * 2 * Real.pi)) / radius) /
    (1 / (ncol : ℝ))⌉

/-- rotation.py:355-389 `_create_mask`. -/
def createMask (nrow ncol : Nat) (radius : ℝ) (drop : Int) : Nat → Nat → ℝ := fun i c =>
  let pos := wedge nrow ncol radius i
  let lo := min (max (min (-pos + cenIdx ncol) (pos + cenIdx ncol)) 0) ((ncol : Int) - 1)
  let hi := min (max (max (-pos + cenIdx ncol) (pos + cenIdx ncol)) 0) ((ncol : Int) - 1)
  let m : ℝ := if pyBound ncol lo ≤ c ∧ (c : Int) < pyBound ncol (hi + 1) then 1 else 0
  let d := dropRows nrow drop
  let m := if pyBound nrow (cenIdx nrow - d) ≤ i ∧ (i : Int) < pyBound nrow (cenIdx nrow + d + 1)
    then 0 else m
  if pyBound ncol (cenIdx ncol - 1) ≤ c ∧ (c : Int) < pyBound ncol (cenIdx ncol + 2) then 0 else m

/-- rotation.py:297-298: mean of the masked spectrum of a `h × w` array. -/
def spectrumMean (h w : Nat) (mask mat : Nat → Nat → ℝ) : ℝ :=
  (∑ r ∈ Finset.range h, ∑ c ∈ Finset.range w,
    ‖Phase.fft2 h w (fun r c => (mat r c : ℂ)) (Phase.shiftSrc h r) (Phase.shiftSrc w c)‖
      * mask r c) / (h * w)

/-- rotation.py:274-299 `_calculate_metric` with the arguments of lines 318-320 and 347-349. -/
def metric (nrow ncol : Nat) (ratio : ℝ) (drop : Int)
    (spline : ℝ → (Nat → Nat → ℝ) → Nat → Nat → ℝ) (sino : Nat → Nat → ℝ) (shift : ℝ) : ℝ :=
  spectrumMean (2 * nrow) ncol (createMask (2 * nrow) ncol (1 / 2 * ratio * ncol) drop)
    (vstack nrow sino (shifted ncol shift spline (fliplr ncol sino) (flipud nrow sino)))

/-! ### find_center_vo -/

/-- rotation.py:237-251: the sinogram that is used.  For a 2D array `height = 1`. -/
def pickSino (twoD : Bool) (height : Nat) (ind : Option Int) (tomo : Nat → Nat → Nat → ℝ) :
    Except PyErr (Nat → Nat → ℝ) :=
  if twoD then .ok fun p c => tomo p 0 c
  else match ind with
    | none =>
      let ind := height / 2
      if height > 10 then
        let lo := (pyBound height ((ind : Int) - 5)).toNat
        let hi := (pyBound height ((ind : Int) + 5)).toNat
        .ok fun p c => (∑ s ∈ Finset.Ico lo hi, tomo p s c) / ((hi - lo : Nat) : ℝ)
      else if ind < height then .ok fun p c => tomo p ind c else .error .index
    | some i =>
      if 0 ≤ i ∧ i < height then .ok fun p c => tomo p i.toNat c
      else if -(height : Int) ≤ i ∧ i < 0 then .ok fun p c => tomo p (i + height).toNat c
      else .error .index

/-- rotation.py:205-271 `find_center_vo`; `gauss` are the two smoothing filters and `down` the
downsampling by four along the detector. -/
def findCenterVo (gauss1 gauss2 down : (Nat → Nat → ℝ) → Nat → Nat → ℝ)
    (spline : ℝ → (Nat → Nat → ℝ) → Nat → Nat → ℝ) (twoD : Bool) (depth height width : Nat)
    (ind : Option Int) (smin smax srad step ratio : ℝ) (drop : Int)
    (tomo : Nat → Nat → Nat → ℝ) : Except PyErr ℝ := do
  let t ← pickSino twoD height ind tomo
  let cs := gauss1 t
  let fs := gauss2 t
  if depth * width > 4000000 then
    let init ← searchCoarse (metric depth (width / 4) ratio drop spline (down cs)) (width / 4)
      (smin / 4) (smax / 4)
    searchFine (metric depth width ratio drop spline fs) width srad step (init * 4)
  else
    let init ← searchCoarse (metric depth width ratio drop spline cs) width smin smax
    searchFine (metric depth width ratio drop spline fs) width srad step init

end

end Tomopy.Center
