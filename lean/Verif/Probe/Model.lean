import Verif.Base
import Verif.Phase.Model
import Mathlib.Analysis.SpecialFunctions.Log.Basic

/-! Model of source/tomopy/sim/propagate.py.

Simplifications: exact real and complex arithmetic; sizes are natural numbers, shifts integers. -/

namespace Tomopy.Probe

/-! ### Scan coordinates -/

/-- A `while` loop: `While cond body s t` says that the loop started in `s` ends in `t`.  A loop
that never ends is related to no `t` (propagate.py:150-153). -/
inductive While {α : Type} (cond : α → Prop) (body : α → α) : α → α → Prop
  | done (s : α) : ¬ cond s → While cond body s s
  | step (s t : α) : cond s → While cond body (body s) t → While cond body s t

/-- `np.arange(0, n, s)`; a step of zero raises (propagate.py:148-149). -/
def arange (n : Nat) (s : Int) : Except PyErr (List Int) :=
  if s = 0 then .error .zeroDivision
  else .ok ((List.range (if s < 0 then 0 else (((n : Int) + s - 1) / s).toNat)).map
    fun i : Nat => (i : Int) * s)

/-- One axis of `_rect_scan_coords` with a probe of `p` and a projection of `n` pixels
(propagate.py:148-153): the coordinates returned. -/
def ScanAxis (p n : Nat) (s : Int) (x : List Int) : Prop :=
  ∃ x0, arange n s = .ok x0 ∧
    While (fun x : List Int => (x.length : Int) * s > (n : Int) - p + s) List.dropLast x0 x

/-- propagate.py:179-182: half overlap by default. -/
def shiftOr (size : Nat) : Option Int → Int
  | none => ((size / 2 : Nat) : Int)
  | some s => s

/-! ### Scanned images -/

/-- A two-dimensional array (propagate.py:175-176). -/
structure Img (K : Type) where
  /-- number of rows -/
  r : Nat
  /-- number of columns -/
  c : Nat
  /-- elements -/
  get : Nat → Nat → K

/-- `proj[i:i + sx, j:j + sy]` (propagate.py:189). -/
def region {K : Type} (proj : Img K) (i j : Int) (sx sy : Nat) : Img K where
  r := (pyBound proj.r (i + sx) - pyBound proj.r i).toNat
  c := (pyBound proj.c (j + sy) - pyBound proj.c j).toNat
  get a b := proj.get ((pyBound proj.r i).toNat + a) ((pyBound proj.c j).toNat + b)

/-- Length of an axis of a product with numpy broadcasting (propagate.py:189). -/
def bLen (a b : Nat) : Except PyErr Nat :=
  if a = b then .ok a else if a = 1 then .ok b else if b = 1 then .ok a else .error .value

/-- `probe * region` (propagate.py:189). -/
def mulImg {K : Type} [Mul K] (p q : Img K) : Except PyErr (Img K) := do
  let r ← bLen p.r q.r
  let c ← bLen p.c q.c
  return ⟨r, c, fun a b => p.get (if p.r = 1 then 0 else a) (if p.c = 1 then 0 else b) *
    q.get (if q.r = 1 then 0 else a) (if q.c = 1 then 0 else b)⟩

/-- propagate.py:189-190 for given coordinates.  `np.array` needs frames of one shape, which
they have (`scan_probe_frames`). -/
def scanFrames {K : Type} [Mul K] (probe proj : Img K) (x y : List Int) :
    Except PyErr (List (Img K)) :=
  (x.flatMap fun i => y.map fun j => (i, j)).mapM fun ij =>
    mulImg probe (region proj ij.1 ij.2 probe.r probe.c)

/-- propagate.py:157-190 `_rect_scan_probe`: `RectScanProbe … res` says that the call ends with
`res`. -/
def RectScanProbe {K : Type} [Mul K] (probe proj : Img K) (shiftX shiftY : Option Int)
    (res : Except PyErr (List (Img K))) : Prop :=
  ∃ x y, ScanAxis probe.r proj.r (shiftOr probe.r shiftX) x ∧
    ScanAxis probe.c proj.c (shiftOr probe.c shiftY) y ∧ res = scanFrames probe proj x y

noncomputable section

/-- propagate.py:214-215: mode `near`. -/
def near (psi : List (Img ℂ)) : List (Img ℝ) :=
  psi.map fun f => ⟨f.r, f.c, fun a b => ‖f.get a b‖ ^ 2⟩

/-- propagate.py:217 `abs(np.fft.fft2(f)) ** 2` of one frame. -/
def spectrum (f : Img ℂ) : Img ℝ :=
  ⟨f.r, f.c, fun a b => ‖Phase.fft2 f.r f.c f.get a b‖ ^ 2⟩

/-- propagate.py:216-217: mode `far`.  `np.fft.fftshift` without `axes` shifts all three axes of
the stack. -/
def far (psi : List (Img ℂ)) : List (Img ℝ) :=
  (List.range psi.length).map fun k =>
    let f := spectrum (psi.getD (Phase.shiftSrc psi.length k) ⟨0, 0, fun _ _ => 0⟩)
    ⟨f.r, f.c, fun a b => f.get (Phase.shiftSrc f.r a) (Phase.shiftSrc f.c b)⟩

/-! ### Propagation -/

/-- One axis of `np.gradient(f, h)` with `n` elements (propagate.py:90-92). -/
def grad1 (n : Nat) (h : ℝ) (f : Nat → ℝ) (i : Nat) : ℝ :=
  if i = 0 then (f 1 - f 0) / h
  else if i = n - 1 then (f (n - 1) - f (n - 2)) / h
  else (f (i + 1) - f (i - 1)) / (2 * h)

/-- `np.gradient(f, h)[0]` of an image with `r` rows (propagate.py:90-91). -/
def gradRows (r : Nat) (h : ℝ) (f : Nat → Nat → ℝ) (i j : Nat) : ℝ :=
  grad1 r h (fun i => f i j) i

/-- `np.gradient(f, h)[1]` of an image with `c` columns (propagate.py:90, 92). -/
def gradCols (c : Nat) (h : ℝ) (f : Nat → Nat → ℝ) (i j : Nat) : ℝ :=
  grad1 c h (fun j => f i j) j

/-- propagate.py:87-93 for one projection of `r × c`. -/
def tieFrame (r c : Nat) (pixel dist : ℝ) (mu delta : Nat → Nat → ℝ) (i j : Nat) : ℝ :=
  let i1 := fun i j => Real.exp (-mu i j)
  let dx := gradRows r pixel delta
  let dy := gradCols c pixel delta
  let d2x := gradRows r pixel fun i j => i1 i j * dx i j
  let d2y := gradCols c pixel fun i j => i1 i j * dy i j
  i1 i j + dist * (d2x i j + d2y i j)

/-- propagate.py:67-94 `propagate_tie` for stacks of the same shape; `np.gradient` needs two
elements along each axis, division by a pixel size of zero is not modelled. -/
def propagateTie (n r c : Nat) (pixel dist : ℝ) (mu delta : Nat → Nat → Nat → ℝ) :
    Except PyErr (Nat → Nat → Nat → ℝ) :=
  if 0 < n ∧ (r < 2 ∨ c < 2) then .error .value
  else .ok fun m => tieFrame r c pixel dist (mu m) (delta m)

/-! ### Probe -/

/-- propagate.py:117-126 `probe_gauss`: element `(x, y)`.  A width of zero (default for a grid of
one pixel) is not modelled. -/
def probeGauss (nx ny : Nat) (fwhm : Option ℝ) (center : Option (ℝ × ℝ)) (maxInt : ℝ)
    (x y : Nat) : ℝ :=
  let w : ℝ := fwhm.getD ((max nx ny / 2 : Nat) : ℝ)
  let x0 : ℝ := (center.map Prod.fst).getD ((nx / 2 : Nat) : ℝ)
  let y0 : ℝ := (center.map Prod.snd).getD ((ny / 2 : Nat) : ℝ)
  maxInt * Real.exp (-4 * Real.log 2 *
    (((x : ℝ) - x0 + 1 / 2) ^ 2 + ((y : ℝ) - y0 + 1 / 2) ^ 2) / w ^ 2)

end

end Tomopy.Probe
