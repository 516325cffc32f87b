import Verif.Mproc.Model
import Mathlib.Analysis.SpecialFunctions.Complex.Circle
import Mathlib.Data.Nat.Log
import Mathlib.Algebra.Order.Floor.Defs
import Mathlib.Algebra.Order.Archimedean.Real.Basic

/-! Model of source/tomopy/prep/phase.py `retrieve_phase`.

Simplifications: exact real and complex arithmetic (`float32` in the code); `fft2` and `ifft2`
are the discrete Fourier transforms they document; `np.log2`/`ceil`/`pow` are exact. -/
namespace Tomopy.Phase

noncomputable section

/-- A projection or frame (phase.py:134, 138); sizes are kept separately. -/
abbrev Frame := Nat → Nat → ℝ     -- phase.py:134, 138

/-! ### Padding -/

/-- Start of the python slice `a:` on an axis of length `n` (phase.py:140, 142). -/
def sliceFrom (n : Nat) (a : Int) : Nat := if a < 0 then (a + n).toNat else min a.toNat n

/-- phase.py:138 `prj[px:dy + px, py:dz + py] = tomo[m]`. -/
def setBlock (px py dy dz : Nat) (prj t : Frame) : Frame := fun r c =>
  if px ≤ r ∧ r < dy + px ∧ py ≤ c ∧ c < dz + py then t (r - px) (c - py) else prj r c

/-- phase.py:139 `prj[:px] = prj[px]`. -/
def fillTop (px : Nat) (prj : Frame) : Frame := fun r c => if r < px then prj px c else prj r c

/-- phase.py:140 `prj[-px:] = prj[-px-1]` with `h` rows. -/
def fillBottom (h px : Nat) (prj : Frame) : Frame := fun r c =>
  if sliceFrom h (-px) ≤ r then prj (h - px - 1) c else prj r c

/-- phase.py:141 `prj[:, :py] = prj[:, py][:, np.newaxis]`. -/
def fillLeft (py : Nat) (prj : Frame) : Frame := fun r c => if c < py then prj r py else prj r c

/-- phase.py:142 `prj[:, -py:] = prj[:, -py-1][:, np.newaxis]` with `w` columns. -/
def fillRight (w py : Nat) (prj : Frame) : Frame := fun r c =>
  if sliceFrom w (-py) ≤ c then prj r (w - py - 1) else prj r c

/-- phase.py:138-142: the work array `prj` after a projection has been put in. -/
def embed (px py dy dz : Nat) (prj t : Frame) : Frame :=
  fillRight (dz + 2 * py) py (fillLeft py (fillBottom (dy + 2 * px) px (fillTop px
    (setBlock px py dy dz prj t))))

/-- phase.py:72. -/
def PI : ℝ := 314159265359 / 100000000000
/-- phase.py:73. -/
def planck : ℝ := 658211928 / 10 ^ 27
/-- phase.py:71. -/
def lightSpeed : ℝ := 29979245800
/-- phase.py:76-77 `_wavelength`. -/
def wavelength (energy : ℝ) : ℝ := 2 * PI * planck * lightSpeed / energy

/-- phase.py:192-194 `_calc_pad_width`: the next power of two above `dim + pad_pix`, half of the
surplus on each side. -/
def padWidth (dim padPix : Nat) : Nat := (2 ^ Nat.clog 2 (dim + padPix) - dim) / 2

/-- phase.py:193 `pad_pix` (for positive parameters). -/
def padPix (pixel wl dist : ℝ) : Nat := ⌈PI * wl * dist / pixel ^ 2⌉₊

/-- phase.py:177-185 `_calc_pad` (the pad value is not used, see `embed_eq`). -/
def calcPad (dy dz : Nat) (pixel dist energy : ℝ) (pad : Bool) : Nat × Nat :=
  if pad then (padWidth dy (padPix pixel (wavelength energy) dist),
    padWidth dz (padPix pixel (wavelength energy) dist)) else (0, 0)

/-! ### Filter -/

/-- phase.py:225-244 `_reciprocal_coord`: element `i`. -/
def rcoord (pixel : ℝ) (num i : Nat) : ℝ :=
  (-((num : ℝ) - 1) + 2 * i) * (1 / 2 / (((num : ℝ) - 1) * pixel))

/-- phase.py:201-223 `_reciprocal_grid`. -/
def w2 (pixel : ℝ) (nx ny : Nat) (i j : Nat) : ℝ := rcoord pixel nx i ^ 2 + rcoord pixel ny j ^ 2

/-- phase.py:188-189 `_paganin_filter_factor`. -/
def paganin (energy dist alpha x : ℝ) : ℝ := 1 / (wavelength energy * dist * x / (4 * PI) + alpha)

/-- `np.fft.fftshift` along one axis of length `n`: where element `i` of the result comes from
(phase.py:119). -/
def shiftSrc (n i : Nat) : Nat := (i + (n - n / 2)) % n

/-- phase.py:116-120 `phase_filter` for a frame of `h × w`. -/
def phaseFilter (pixel dist energy alpha : ℝ) (h w : Nat) : Frame := fun i j =>
  paganin energy dist alpha (w2 pixel h w (shiftSrc h i) (shiftSrc w j))

/-- `phase_filter.max()` (phase.py:136). -/
def maxOf (h w : Nat) (g : Frame) : ℝ :=
  (List.range h).foldl (fun m i => (List.range w).foldl (fun m j => max m (g i j)) m) (g 0 0)

/-- phase.py:136 `normalized_phase_filter`. -/
def normalized (h w : Nat) (g : Frame) : Frame := fun i j => g i j / maxOf h w g

/-- `exp(2πik/n)`, the kernel of the transforms (phase.py:143, 145). -/
def rot (n : Nat) (k : Int) : ℂ := Complex.exp (2 * Real.pi * Complex.I * k / n)

/-- phase.py:143 `fft2`. -/
def fft2 (h w : Nat) (f : Nat → Nat → ℂ) (u v : Nat) : ℂ :=
  ∑ r ∈ Finset.range h, ∑ c ∈ Finset.range w, f r c * (rot h (-(r * u)) * rot w (-(c * v)))

/-- phase.py:145 `ifft2`. -/
def ifft2 (h w : Nat) (y : Nat → Nat → ℂ) (r c : Nat) : ℂ :=
  (∑ u ∈ Finset.range h, ∑ v ∈ Finset.range w, y u v * (rot h (r * u) * rot w (c * v))) / (h * w)

/-- phase.py:143-145: filter a frame with the gains `g`. -/
def applyFilter (h w : Nat) (g f : Frame) : Frame := fun r c =>
  (ifft2 h w (fun u v => fft2 h w (fun r c => (f r c : ℂ)) u v * (g u v : ℂ)) r c).re

/-! ### The whole -/

/-- phase.py:138-148, one projection: new work array and new projection.  With `pad = False`
the pad widths are 0 and the frame is assigned as it is. -/
def phaseOne (px py dy dz : Nat) (g : Frame) (prj t : Frame) : Frame × Frame :=
  let prj := embed px py dy dz prj t
  let proj := applyFilter (dy + 2 * px) (dz + 2 * py) g prj
  (prj, fun r c => proj (r + px) (c + py))

/-- phase.py:133-148 `_retrieve_phase`: the projections of a chunk one after the other with a shared
work array. -/
def retrieveChunk (px py dy dz : Nat) (g : Frame) : Frame → List (List Frame) → List (List Frame)
  | _, [] => []
  | prj, [] :: rows => [] :: retrieveChunk px py dy dz g prj rows
  | prj, (t :: ts) :: rows =>
    let p := phaseOne px py dy dz g prj t
    (p.2 :: ts) :: retrieveChunk px py dy dz g p.1 rows

/-- phase.py:111-130 `retrieve_phase` as the block function given to `distribute_jobs`; `val` is the
value with which `prj` is filled (line 122).  Worker processes get their own copy of `prj` with
every chunk; without workers the chunks share it, which makes no difference (`embed_eq`). -/
def retrievePhase (dy dz : Nat) (pixel dist energy alpha val : ℝ) (pad : Bool) :
    Mproc.BlockFun Frame where
  inplace rows :=
    let p := calcPad dy dz pixel dist energy pad
    let h := dy + 2 * p.1
    let w := dz + 2 * p.2
    retrieveChunk p.1 p.2 dy dz (normalized h w (phaseFilter pixel dist energy alpha h w))
      (fun _ _ => val) rows
  ret _ := none

end

end Tomopy.Phase
