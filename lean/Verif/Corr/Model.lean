import Verif.Base
import Verif.Num.Order
import Verif.Mproc.Model
import Verif.Recon.Model

/-! Model of source/tomopy/misc/corr.py (clean-up filters, masks) and of
libtomo/misc/median_filt3d.c. -/
namespace Tomopy.Corr
open Tomopy.Num Tomopy.Par

section Order
variable {K : Type} [LinearOrder K]

/-! ### adjust_range, remove_nan, remove_neg

A value is `some v`, or `none` for NaN. -/

/-- IEEE comparison `a < b` with NaN (corr.py:111-114, 528, 555): false if one side is NaN. -/
def vlt : Option K → Option K → Bool
  | some a, some b => decide (a < b)
  | _, _ => false

/-- `np.max(arr)` (corr.py:108, 111): NaN if there is a NaN, `ValueError` if empty. -/
def npMax (l : List (Option K)) : Except PyErr (Option K) :=
  if l = [] then .error .value
  else if l.any Option.isNone then .ok none
  else .ok (l.filterMap id).max?

/-- `np.min(arr)` (corr.py:110, 113). -/
def npMin (l : List (Option K)) : Except PyErr (Option K) :=
  if l = [] then .error .value
  else if l.any Option.isNone then .ok none
  else .ok (l.filterMap id).min?

/-- corr.py:90-115 `adjust_range` on the flattened array; `dmin`/`dmax` are `none` when the
argument is `None`. -/
def adjustRange (dmin dmax : Option K) (l : List (Option K)) :
    Except PyErr (List (Option K)) := do
  let hi ← match dmax with                                             -- 107-108
    | none => npMax l
    | some d => .ok (some d)
  let lo ← match dmin with                                             -- 109-110
    | none => npMin l
    | some d => .ok (some d)
  let mx ← npMax l
  let l := if vlt hi mx then l.map (fun v => if vlt hi v then hi else v) else l   -- 111-112
  let mn ← npMin l
  return if vlt mn lo then l.map (fun v => if vlt v lo then lo else v) else l     -- 113-114

/-- corr.py:506-530 `remove_nan`: `where(arr!=arr, val, arr)`; only NaN differs from itself. -/
def removeNan (val : Option K) (l : List (Option K)) : List (Option K) :=
  l.map fun v => match v with
    | none => val
    | some x => some x

/-- corr.py:533-556 `remove_neg`: `where(arr<0, val, arr)`. -/
def removeNeg [Zero K] (val : Option K) (l : List (Option K)) : List (Option K) :=
  l.map fun v => if vlt v (some 0) then val else v

end Order

section Field
variable {K : Type} [LinearOrder K] [Field K] [IsStrictOrderedRing K]

/-! ### median_filter_nonfinite -/

/-- A projection; `none` is any non-finite value (NaN, inf, -inf), corr.py:322-324. -/
abbrev Proj (K : Type) := Nat → Nat → Option K

/-- corr.py:323 `np.nonzero(~np.isfinite(projection))` in row-major order. -/
def nonfiniteIdx (h w : Nat) (p : Proj K) : List (Nat × Nat) :=
  (List.range h).flatMap fun x =>
    ((List.range w).filter fun y => (p x y).isNone).map fun y => (x, y)

/-- corr.py:329-335, 337: the finite values in the cropped window around `(x, y)`. -/
def windowFinite (h w size : Nat) (p : Proj K) (x y : Nat) : List K :=
  let xl := x - size / 2
  let xh := min h (x + size / 2 + 1)
  let yl := y - size / 2
  let yh := min w (y + size / 2 + 1)
  (List.range' xl (xh - xl)).flatMap fun a =>
    (List.range' yl (yh - yl)).filterMap fun b => p a b

/-- corr.py:327-348: loop over the bad pixels `idx`; `orig` is `projection_copy`, `p` the
projection that is modified in place. -/
def repair (h w size : Nat) (orig : Proj K) : List (Nat × Nat) → Proj K → Except PyErr (Proj K)
  | [], p => .ok p
  | (x, y) :: rest, p =>
    let win := windowFinite h w size orig x y
    if win.length = 0 then .error .value
    else repair h w size orig rest
      (fun a b => if a = x ∧ b = y then some (npMedian win) else p a b)

/-- corr.py:281-352 `median_filter_nonfinite` on a stack of h×w projections; `callback` is
ignored.  On an exception the partially modified stack stays with the caller (not modelled). -/
def medianNonfinite (h w size : Nat) (stack : List (Proj K)) : Except PyErr (List (Proj K)) :=
  stack.mapM fun p => repair h w size p (nonfiniteIdx h w p) p

/-! ### remove_outlier -/

/-- Index after scipy's boundary mode 'reflect' (d c b a | a b c d | d c b a), default of
`scipy.ndimage.median_filter` (corr.py:599), `n > 0`. -/
def reflect (n : Nat) (i : Int) : Nat :=
  let m := (i % (2 * n)).toNat
  if m < n then m else 2 * n - 1 - m

/-- Window of `scipy.ndimage.median_filter(size=(size,size))` at `(y, x)`: offsets
`-(size//2) … size-size//2-1` (corr.py:599-602). -/
def scipyWindow (h w size : Nat) (img : Nat → Nat → K) (y x : Nat) : List K :=
  (List.range size).flatMap fun (a : Nat) => (List.range size).map fun (b : Nat) =>
    img (reflect h ((y : Int) + a - (size / 2 : Nat))) (reflect w ((x : Int) + b - (size / 2 : Nat)))

/-- `scipy.ndimage.median_filter` (corr.py:599): element of rank `n//2` of the window. -/
def scipyMedian (h w size : Nat) (img : Nat → Nat → K) (y x : Nat) : K :=
  (sortL (scipyWindow h w size img y x)).getD (size * size / 2) 0

/-- corr.py:587-603: `tmp` after the thread pool, for axis 0 (other axes are a renaming of the
dimensions).  Chunks are disjoint, each is filled by one worker, so the order is immaterial
(see the theorems on `distribute_jobs` for interleavings); `none` is uninitialised memory. -/
def outlierTmp (cpu n h w size : Nat) (ncore : Option Nat) (arr : Nat → Nat → Nat → K) :
    Except PyErr (Nat → Nat → Nat → Option K) :=
  match Mproc.getNcoreSlices cpu n ncore none with
  | .error e => .error e
  | .ok (_, slcs) => .ok (slcs.foldl (fun tmp s => fun z y x =>
      if z ∈ s.indices n then some (scipyMedian h w size (arr z) y x) else tmp z y x)
      (fun _ _ _ => none))

/-- corr.py:609-612: `where(arr-tmp>=dif,tmp,arr)`. -/
def outlierPix (dif a t : K) : K := if a - t ≥ dif then t else a

/-- corr.py:559-612 `remove_outlier` for axis 0, `size ≥ 1`. -/
def removeOutlier (cpu n h w size : Nat) (ncore : Option Nat) (dif : K)
    (arr : Nat → Nat → Nat → K) : Except PyErr (Nat → Nat → Nat → Option K) :=
  match outlierTmp cpu n h w size ncore arr with
  | .error e => .error e
  | .ok tmp => .ok fun z y x => (tmp z y x).map (outlierPix dif (arr z y x))

/-! ### median_filt3d.c -/

/-- median_filt3d.c:88-102: neighbour coordinate, the centre itself when outside. -/
def nb (dim i : Nat) (d : Int) : Nat :=
  let i1 := (i : Int) + d
  if i1 < 0 ∨ i1 ≥ dim then i else i1.toNat

/-- The offsets `-radius … radius` (median_filt3d.c:88, 93, 98). -/
def offs (radius : Nat) : List Int := (List.range (2 * radius + 1)).map fun (a : Nat) => (a : Int) - radius

/-- Flat index (median_filt3d.c:103, 331). -/
def idx3 (dX dY i j k : Nat) : Nat := dX * dY * k + j * dX + i

/-- median_filt3d.c:86-108: addresses gathered into `ValVec`, in order. -/
def windowIdx (radius dX dY dZ i j k : Nat) : List Nat :=
  (offs radius).flatMap fun im => (offs radius).flatMap fun jm => (offs radius).map fun km =>
    idx3 dX dY (nb dX i im) (nb dY j jm) (nb dZ k km)

/-- Memory cells of the kernel: input and output arrays (median_filt3d.c:283). -/
inductive Cell where
  | input (a : Nat)
  | output (a : Nat)
  deriving DecidableEq

/-- median_filt3d.c:110-122: value to store for the voxel, `none` if nothing is stored.
`x` is `Input[index]`, `vs` the gathered window; `qsort` yields the sorted array. -/
def medDecide (radius : Nat) (thr : K) (vs : List K) (x : K) : Option K :=
  let med := (sortL vs).getD ((2 * radius + 1) ^ 3 / 2) 0
  if thr = 0 then some med else if |x - med| ≥ thr then some med else none

/-- median_filt3d.c:327-336: loop over the voxels `(j, i)` of plane `k`. -/
def planeProg (radius dX dY dZ : Nat) (thr : K) (k : Nat) : List (Nat × Nat) → Prog Cell K
  | [] => .done
  | (j, i) :: rest =>
    Prog.readAll ((windowIdx radius dX dY dZ i j k).map Cell.input) fun vs =>
      .read (.input (idx3 dX dY i j k)) fun x =>
        match medDecide radius thr vs x with
        | some v => .write (.output (idx3 dX dY i j k)) v (planeProg radius dX dY dZ thr k rest)
        | none => planeProg radius dX dY dZ thr k rest

/-- Loop order of median_filt3d.c:327-329. -/
def planeOrder (dX dY : Nat) : List (Nat × Nat) :=
  (List.range dY).flatMap fun j => (List.range dX).map fun i => (j, i)

/-- Tasks of the `omp parallel for` over `k` (median_filt3d.c:324-325), one per iteration. -/
def medTask (radius dX dY dZ : Nat) (thr : K) (k : Nat) : Prog Cell K :=
  if k < dZ then planeProg radius dX dY dZ thr k (planeOrder dX dY) else .done

/-- corr.py:392, 453: half size of the kernel. -/
def halfSize (size : Int) : Nat := ((max size 3 - 1) / 2).toNat

end Field

/-! ### dtype dispatch -/

/-- numpy dtypes as far as the dispatch looks at them (corr.py:385-386, 402). -/
inductive DType where
  | float32
  | uint16
  | other (name : String)
  deriving DecidableEq

/-- The two C kernels (corr.py:403, 407). -/
inductive MedKernel where
  | float
  | uint16
  deriving DecidableEq

/-- corr.py:385-409, 447-470: dtype of the buffers handed to C and the kernel called.
`input_type` is read before the conversion. -/
def medDispatch (t : DType) : DType × MedKernel :=
  let inputType := t
  let arr := if inputType ≠ .float32 ∧ inputType ≠ .uint16 then DType.float32 else t
  (arr, if inputType = .float32 then .float else .uint16)

/-- Bytes per element of the buffers (numpy itemsize, corr.py:388) for the two dtypes that reach
the C code. -/
def itemsize : DType → Nat
  | .float32 => 4
  | .uint16 => 2
  | .other _ => 8

/-- Bytes per element as seen by the kernel (median_filt3d.c:283, 343). -/
def kernelSize : MedKernel → Nat
  | .float => 4
  | .uint16 => 2

/-- Bytes of the output buffer that the kernel stores to, for `n` voxels with `thr = 0`
(median_filt3d.c:115, 221: elements `0 … n-1` of its own type). -/
def bytesWritten (t : DType) (n : Nat) : Nat := kernelSize (medDispatch t).2 * n

/-! ### memory layout -/

/-- Axis order in memory: C order or Fortran order (corr.py:388 `np.empty_like(arr)` keeps the
order of `arr`; corr.py:404 `np.ascontiguousarray(arr)` is C order). -/
inductive Layout where
  | c
  | f

/-- Position of element `(z, y, x)` of a `dz`×`dy`×`dx` array in memory (numpy strides,
corr.py:388, 404). -/
def Layout.pos (dz dy dx : Nat) : Layout → Nat → Nat → Nat → Nat
  | .c, z, y, x => dy * dx * z + y * dx + x
  | .f, z, y, x => z + dz * (y + dy * x)

/-- corr.py:388, 403-410 `median_filter3d`, where the flat result of the C kernel (C order,
`res`) is stored in `out`, whose layout is that of `arr`: element `(z, y, x)` of the returned
array. -/
def medianOut {K : Type} (lay : Layout) (dz dy dx : Nat) (res : Nat → K) (z y x : Nat) : K :=
  res (lay.pos dz dy dx z y x)

/-- corr.py:450 `remove_outlier3d` uses `np.copy(arr, order="C")` instead. -/
def outlierOut {K : Type} (_lay : Layout) (dz dy dx : Nat) (res : Nat → K) (z y x : Nat) : K :=
  res (Layout.c.pos dz dy dx z y x)

section Mask
variable {K : Type} [LinearOrder K] [Field K] [IsStrictOrderedRing K]

/-! ### circ_mask -/

/-- corr.py:885-910 `_get_mask` at row `i`, column `j`. `np.ogrid[0.5-r:0.5+r]` has `2r`
entries `0.5-r+i`. -/
def getMask (dx dy : Nat) (ratio : K) (i j : Nat) : Bool :=
  let rad1 := (dx : K) / 2
  let rad2 := (dy : K) / 2
  let r2 := if dx < dy then rad1 * rad1 else rad2 * rad2
  let y := 1 / 2 - rad1 + i
  let x := 1 / 2 - rad2 + j
  decide (x * x + y * y < ratio * ratio * r2)

/-- `arr.swapaxes(0, axis)` for a 3D array (corr.py:875, 882), axis 0, 1, 2. -/
def swap0 {α : Type} (axis : Nat) (a : Recon.Arr3 α) : Recon.Arr3 α :=
  match axis with
  | 0 => a
  | 1 => ⟨a.d1, a.d0, a.d2, fun i j k => a.get j i k⟩
  | _ => ⟨a.d2, a.d1, a.d0, fun i j k => a.get k j i⟩

/-- corr.py:852-882 `circ_mask`. -/
def circMask (axis : Nat) (ratio val : K) (a : Recon.Arr3 K) : Recon.Arr3 K :=
  let b := swap0 axis a
  swap0 axis { b with get := fun i j k => if getMask b.d1 b.d2 ratio j k then b.get i j k else val }

end Mask

end Tomopy.Corr
