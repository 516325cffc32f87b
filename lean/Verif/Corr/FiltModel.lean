import Verif.Corr.Model
import Verif.Dtype.Model

/-!
# The slice-wise filters of `misc/corr.py`

`gaussian_filter`, `median_filter`, `sobel_filter`, `remove_outlier1d` and the two functions that use
a GPU.  The first four hand the slices to a thread pool and drop the futures.
-/

set_option linter.unusedSectionVars false

namespace Tomopy.Corr.Filt

open Tomopy.Num

/-- An array of any number of dimensions (`source/tomopy/misc/corr.py:147,187,492`). -/
structure Nd (K : Type) where
  shape : List Nat
  get : List Nat → K

/-- All indices of an array in row-major order (`source/tomopy/misc/corr.py:158-163`). -/
def allIdx : List Nat → List (List Nat)
  | [] => [[]]
  | n :: s => (List.range n).flatMap fun i => (allIdx s).map (i :: ·)

/-- `arr[tuple(slc)]` where `slc` has the integer `i` at `axis` and `slice(None)` elsewhere
(`source/tomopy/misc/corr.py:154-160`). -/
def slab {K : Type} (a : Nd K) (axis i : Nat) : Nd K :=
  ⟨a.shape.eraseIdx axis, fun idx => a.get (idx.insertIdx axis i)⟩

/-- `arr.shape[axis]` and `slc[axis] = i`: negative axes count from the end, others out of range
raise IndexError (`source/tomopy/misc/corr.py:155-156`). -/
def axisOf (ndim : Nat) (axis : Int) : Except PyErr Nat :=
  if 0 ≤ axis ∧ axis < ndim then .ok axis.toNat
  else if axis < 0 ∧ 0 ≤ axis + ndim then .ok (axis + ndim).toNat
  else .error .index

/-- A filter of `scipy.ndimage` writing to `output`: the values it writes, or what it raises
(`source/tomopy/misc/corr.py:157-163`). -/
abbrev Filter (K : Type) := Nd K → Except PyErr (List Nat → K)

/-- What the task of slice `i` writes to `out` (`source/tomopy/misc/corr.py:157-163,196-202`): the
future is dropped, so a task that raises writes nothing and says nothing.  Simplification: a filter
that raises does so before writing. -/
def taskWrites {K : Type} (f : Filter K) (a : Nd K) (axis i : Nat) : List (List Nat × K) :=
  match f (slab a axis i) with
  | .error _ => []
  | .ok r => (allIdx (slab a axis i).shape).map fun idx => (idx.insertIdx axis i, r idx)

/-- Everything the tasks write (`source/tomopy/misc/corr.py:153-163`). -/
def poolWrites {K : Type} (f : Filter K) (a : Nd K) (axis : Nat) : List (List Nat × K) :=
  (List.range (a.shape.getD axis 0)).flatMap fun i => taskWrites f a axis i

/-- `out = np.empty_like(arr)` after writes in the given order (`source/tomopy/misc/corr.py:148`);
`none` is uninitialised memory. -/
def applyWrites {K : Type} (ws : List (List Nat × K)) : List Nat → Option K :=
  ws.foldl (fun out w => fun idx => if idx = w.1 then some w.2 else out idx) fun _ => none

/-- One run of `gaussian_filter` or `median_filter` (`source/tomopy/misc/corr.py:147-164,187-203`):
the writes of the threads happen in any order at all. -/
inductive Run {K : Type} (f : Filter K) (a : Nd K) (axis : Int) :
    Except PyErr (List Nat → Option K) → Prop
  | raised {e} : axisOf a.shape.length axis = .error e → Run f a axis (.error e)
  | done {k ws} : axisOf a.shape.length axis = .ok k → ws.Perm (poolWrites f a k) →
      Run f a axis (.ok (applyWrites ws))

section Filters

variable {K : Type} [Field K] [LinearOrder K] [IsStrictOrderedRing K]

/-- `scipy.ndimage.median_filter(image, size=(size, size))` as called in
`source/tomopy/misc/corr.py:197-202`: RuntimeError if the image has not two dimensions or the size
is 0. -/
def medianF (size : Nat) : Filter K := fun a =>
  match a.shape with
  | [h, w] => if size = 0 then .error .runtime
      else .ok fun idx => scipyMedian h w size (fun y x => a.get [y, x]) (idx.getD 0 0) (idx.getD 1 0)
  | _ => .error .runtime

/-- `scipy.ndimage.gaussian_filter(image, sigma, order)` as called in
`source/tomopy/misc/corr.py:157-163`: `sigma` is a number or a sequence, which must have as many
entries as the image has dimensions (RuntimeError).  `g` is the filter proper. -/
def gaussF (g : List K → Nd K → List Nat → K) (sigma : K ⊕ List K) : Filter K := fun a =>
  match sigma with
  | .inl s => .ok (g (List.replicate a.shape.length s) a)
  | .inr ss => if ss.length = a.shape.length then .ok (g ss a) else .error .runtime

end Filters

/-- `sobel_filter` (`source/tomopy/misc/corr.py:474-503`): the name `filters` is not defined in the
module, so the first pass of the loop raises. -/
def sobelFilter {K : Type} (a : Nd K) (axis : Int) : Except PyErr (List Nat → Option K) :=
  match axisOf a.shape.length axis with
  | .error e => .error e
  | .ok k => if a.shape.getD k 0 = 0 then .ok fun _ => none else .error .name

section Outlier1d

variable {K : Type} [Field K] [LinearOrder K] [IsStrictOrderedRing K]

/-- Index after scipy's boundary mode 'mirror' (d c b | a b c d | c b a)
(`source/tomopy/misc/corr.py:663`), `n > 0`. -/
def mirror (n : Nat) (i : Int) : Nat :=
  if n = 1 then 0
  else
    let m := (i % (2 * n - 2)).toNat
    if m < n then m else 2 * n - 2 - m

/-- The window of the one-dimensional median filter at an index
(`source/tomopy/misc/corr.py:653-664`). -/
def mirrorWindow (a : Nd K) (axis size : Nat) (idx : List Nat) : List K :=
  (List.range size).map fun (b : Nat) =>
    a.get (idx.set axis (mirror (a.shape.getD axis 0)
      ((idx.getD axis 0 : Int) + b - (size / 2 : Nat))))

/-- `remove_outlier1d` (`source/tomopy/misc/corr.py:642-669`), 0 ≤ axis < ndim.  `arr[slc]` with a
list of slices: numpy before 1.23 takes it for a tuple (`listIsTuple`), later ones raise
IndexError.  The chunks of the largest other axis cover it (C01), a task of a filter of size 0
raises unseen. -/
def removeOutlier1d (listIsTuple : Bool) (dif : K) (size : Nat) (axis : Nat) (a : Nd K) :
    Except PyErr (List Nat → Option K) :=
  let other := (List.range a.shape.length).filter (· ≠ axis)
  if other = [] then .error .value
  else if (other.map (a.shape.getD · 0)).all (· = 0) then .error .zeroDivision
  else if listIsTuple = false then .error .index
  else .ok fun idx =>
    if size = 0 then none
    else some (outlierPix dif (a.get idx) ((sortL (mirrorWindow a axis size idx)).getD (size / 2) 0))

end Outlier1d

section Cuda

variable {K : Type} [Field K] [LinearOrder K] [IsStrictOrderedRing K]

/-- `np.lib.pad(im, ((lo, ro), (lo, ro)), "symmetric")` with `lo = int(size/2)`: element of the
padded image (`source/tomopy/misc/corr.py:250-256,718-721`). -/
def padSym (h w size : Nat) (img : Nat → Nat → K) (y x : Nat) : K :=
  img (reflect h ((y : Int) - (size / 2 : Nat))) (reflect w ((x : Int) - (size / 2 : Nat)))

/-- `median_filter` of a 3D array, `size ≥ 1` (`source/tomopy/misc/corr.py:167-203`), as the functions
below call it; `Run` has the details. -/
def medianCpu (size axis : Nat) (a : Recon.Arr3 K) : Recon.Arr3 K :=
  match axis with
  | 0 => { a with get := fun i j k => scipyMedian a.d1 a.d2 size (fun y x => a.get i y x) j k }
  | 1 => { a with get := fun i j k => scipyMedian a.d0 a.d2 size (fun y x => a.get y j x) i k }
  | _ => { a with get := fun i j k => scipyMedian a.d0 a.d1 size (fun y x => a.get y x k) i j }

/-- `remove_outlier` of a 3D array, `size ≥ 1` (`source/tomopy/misc/corr.py:559-612`). -/
def outlierCpu (dif : K) (size axis : Nat) (a : Recon.Arr3 K) : Recon.Arr3 K :=
  { a with get := fun i j k => outlierPix dif (a.get i j k) ((medianCpu size axis a).get i j k) }

/-- What is run for each slice on the GPU (`source/tomopy/misc/corr.py:243-266,713-730`): `gpu h w
padded` is the image `tomocuda` returns for the padded image. -/
def gpuSlices (gpu : Nat → Nat → (Nat → Nat → K) → Nat → Nat → K) (size : Nat) (a : Recon.Arr3 K) :
    Recon.Arr3 K :=
  { a with get := fun i j k => gpu a.d1 a.d2 (padSym a.d1 a.d2 size fun y x => a.get i y x) j k }

/-- `median_filter_cuda` (`source/tomopy/misc/corr.py:206-278`); `tomocuda` says whether the package
can be imported. -/
def medianCuda (tomocuda : Bool) (gpu : Nat → Nat → (Nat → Nat → K) → Nat → Nat → K)
    (size axis : Nat) (a : Recon.Arr3 K) : Recon.Arr3 K :=
  if tomocuda then
    let b := if axis ≠ 0 then swap0 axis a else a
    if 2 ≤ size ∧ size < 16 then
      let out := gpuSlices gpu size b
      if axis ≠ 0 then swap0 axis out else out
    else medianCpu size axis b
  else medianCpu size axis a

/-- `remove_outlier_cuda` (`source/tomopy/misc/corr.py:672-748`): the functions it falls back on are
called without `axis`. -/
def outlierCuda (tomocuda : Bool) (gpu : Nat → Nat → (Nat → Nat → K) → Nat → Nat → K)
    (dif : K) (size axis : Nat) (a : Recon.Arr3 K) : Recon.Arr3 K :=
  if tomocuda then
    let b := if axis ≠ 0 then swap0 axis a else a
    if 2 ≤ size ∧ size < 16 then
      let out := gpuSlices gpu size b
      if axis ≠ 0 then swap0 axis out else out
    else outlierCpu dif size 0 b
  else outlierCpu dif size 0 a

end Cuda

section Enhance

variable {K : Type} [Field K] [LinearOrder K] [IsStrictOrderedRing K]

/-- `np.searchsorted` (left) on a sorted list: the first position whose entry is not below the value
(`source/tomopy/misc/corr.py:993`). -/
def searchsorted (l : List K) (v : K) : Nat := (l.takeWhile (· < v)).length

/-- The pixels of an image in order (`source/tomopy/misc/corr.py:993`: `img.flatten()`). -/
def flatten (h w : Nat) (img : Nat → Nat → K) : List K :=
  (List.range h).flatMap fun y => (List.range w).map fun x => img y x

/-- `_calc_histequal_wgt` (`source/tomopy/misc/corr.py:978-993`). -/
def histWgt (h w : Nat) (img : Nat → Nat → K) (y x : Nat) : K :=
  ((searchsorted (sortL (flatten h w img)) (img y x) : K) + 1) / (h * w : Nat)

/-- Window of `scipy.signal.medfilt2d` (`source/tomopy/misc/corr.py:973`), zeros outside of the
image. -/
def medWindow (h w ks : Nat) (img : Nat → Nat → K) (y x : Nat) : List K :=
  (List.range ks).flatMap fun (a : Nat) => (List.range ks).map fun (b : Nat) =>
    let r := (y : Int) + a - (ks / 2 : Nat)
    let c := (x : Int) + b - (ks / 2 : Nat)
    if 0 ≤ r ∧ r < h ∧ 0 ≤ c ∧ c < w then img r.toNat c.toNat else 0

/-- `_enhance_img` (`source/tomopy/misc/corr.py:952-975`): ValueError for an even kernel or an image
without pixels; a maximum of 0 gives 0/0 (`none`). -/
def enhanceImg (ks : Nat) (normalized : Bool) (h w : Nat) (img : Nat → Nat → K) :
    Except PyErr (Nat → Nat → Option K) :=
  if ks % 2 = 0 then .error .value
  else
    let e : Nat → Nat → K := fun y x =>
      (sortL (medWindow h w ks img y x)).getD (ks * ks / 2) 0 ^ 2 * histWgt h w img y x
    if normalized = false then .ok fun y x => some (e y x)
    else match flatten h w e with
      | [] => .error .value
      | v :: vs =>
        let m := vs.foldl max v
        .ok fun y x => if m = 0 then none else some (e y x / m)

/-- `enhance_projs_aps_1id` (`source/tomopy/misc/corr.py:913-949`): the images one by one, results in
the order of the images; exceptions are raised by `me.result()`; `np.stack` of nothing raises
ValueError, and so does a pool of no workers (`ncore`: the CPUs but one). -/
def enhanceStack (cpu : Nat) (ncore : Option Nat) (ks : Nat) (h w : Nat)
    (imgs : List (Nat → Nat → K)) : Except PyErr (List (Nat → Nat → Option K)) :=
  let n := ncore.getD (cpu - 1)
  if n = 0 then .error .value
  else do
    let out ← imgs.mapM (enhanceImg ks true h w)
    match out with
      | [] => .error .value
      | o :: os => .ok (o :: os)

end Enhance

end Tomopy.Corr.Filt
