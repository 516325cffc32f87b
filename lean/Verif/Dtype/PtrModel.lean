import Verif.Dtype.Model
import Mathlib.Data.List.Sort

/-!
# Arrays handed to C by address

`as_c_float_p(arr)` passes the address of the first element; the C functions then take the array to
be in row-major order.  Here numpy's copies keep the memory order of their source (order `K`).
-/

set_option linter.unusedSectionVars false

namespace Tomopy.Dtype

section Ptr

variable {K : Type} (pun : DType → DType → (Int → K) → Int → K)

/-- What C finds `n` elements behind the pointer of `as_c_float_p`
(`source/tomopy/util/dtype.py:121-123`; `as_c_uint8_p` and the others, lines 126-160, alike);
`none` outside of the buffer. -/
def Arr.cRead (h : Heap K) (a : Arr) (n : Nat) : Option K :=
  let p := a.view.offset + n
  if 0 ≤ p ∧ (p + 1) * a.dtype.itemsize ≤ (h.buf a.buf).len * (h.buf a.buf).dtype.itemsize then
    some (if (h.buf a.buf).dtype = a.dtype then (h.buf a.buf).get p
      else pun (h.buf a.buf).dtype a.dtype (h.buf a.buf).get p)
  else none

/-- What C takes for the element of an index of an array of the shape Python passed along, for
instance `obj[iz + iy*oz + s*ox*oz]` (`source/libtomo/recon/project.c:49-95` with
`source/tomopy/util/extern/recon.py:105-116`). -/
def Arr.cElem (h : Heap K) (a : Arr) (idx : List Nat) : Option K :=
  a.cRead pun h (cflat a.view.shape idx)

/-- numpy's flag `C_CONTIGUOUS` looked at by `np.require` (`source/tomopy/recon/algorithm.py:346,363`):
row-major strides, but the stride of an axis of length one does not matter. -/
def rowMajor : List Nat → List Int → Bool
  | [], [] => true
  | n :: s, t :: ts => (n == 1 || t == (s.prod : Int)) && rowMajor s ts
  | _, _ => false

/-- The flag `C_CONTIGUOUS` of a view (`source/tomopy/recon/algorithm.py:346,363`): arrays without
elements have it, too. -/
def View.cContiguous (v : View) : Bool := v.shape.prod == 0 || rowMajor v.shape v.strides

/-- The axes of a view by falling stride, as numpy's copies in order `K` sort them
(`np.asarray(arr, dtype)` in `source/tomopy/util/dtype.py:88,97`); axes of equal stride keep their
order, and a C-contiguous array stays one. -/
def kAxes (v : View) : List Nat :=
  if v.cContiguous then List.range v.shape.length
  else (List.range v.shape.length).insertionSort
    (fun i j => (v.strides.getD j 0).natAbs ≤ (v.strides.getD i 0).natAbs)

/-- The view of the copy in order `K` (`source/tomopy/util/dtype.py:88,97`): axes keep the order they
have in memory. -/
def kView (v : View) : View :=
  let perm := kAxes v
  let shape' := perm.map (v.shape.getD · 0)
  ⟨v.shape, (List.range v.shape.length).map fun k => (cStrides shape').getD (perm.idxOf k) 0, 0⟩

/-- The index of a position of that copy (`source/tomopy/util/dtype.py:88,97`). -/
def unK (v : View) (n : Nat) : List Nat :=
  let perm := kAxes v
  let shape' := perm.map (v.shape.getD · 0)
  (List.range v.shape.length).map fun k => (unflat shape' n).getD (perm.idxOf k) 0

/-- `np.asarray(arr, dtype)` of an array of another type (`source/tomopy/util/dtype.py:97`). -/
def kCopy (h : Heap K) (a : Arr) (d : DType) (conv : K → K) : Arr × Heap K :=
  (⟨h.next, d, kView a.view, .none⟩,
    ⟨h.next + 1, fun b => if b = h.next then
        ⟨a.view.shape.prod, d, fun n => conv (a.read pun h (unK a.view n.toNat))⟩
      else h.buf b⟩)

/-- `as_float32` (`source/tomopy/util/dtype.py:83-103`) with the memory order of what it returns:
an array of the type is returned as it is, another one copied in order `K`, a list becomes an
array in row-major order. -/
def asFloat32 (conv : DType → DType → K → K) (h : Heap K) (x : Arg) : Arr × Heap K :=
  match x with
  | .array a => if a.dtype = .float32 then (a, h) else kCopy pun h a .float32 (conv a.dtype .float32)
  | .seq a => freshCopy pun h a .float32 (conv a.dtype .float32) .none

/-- `np.require(arr, requirements="AC")` of a float32 array (`source/tomopy/recon/algorithm.py:346`,
`source/tomopy/util/extern/recon.py:90`): the array itself if it is C-contiguous, a row-major copy
otherwise.  Simplification: memory is aligned. -/
def requireAC (h : Heap K) (a : Arr) : Arr × Heap K :=
  if a.view.cContiguous then (a, h) else freshCopy pun h a a.dtype id .none

/-- `init_tomo(tomo, sinogram_order, sharedmem=False)` (`source/tomopy/recon/algorithm.py:337-347`). -/
def initTomo (conv : DType → DType → K → K) (h : Heap K) (x : Arg) (sinogramOrder : Bool) :
    Arr × Heap K :=
  let (a, h1) := asFloat32 pun conv h x
  requireAC pun h1 (if sinogramOrder then a else swapaxes01 a)

/-- `_init_recon` with an initial guess and `sharedmem=False`
(`source/tomopy/recon/algorithm.py:363`). -/
def initRecon (conv : DType → DType → K → K) (h : Heap K) (a : Arr) : Arr × Heap K :=
  if a.dtype = .float32 then requireAC pun h a
  else freshCopy pun h a .float32 (conv a.dtype .float32) .none

/-- C writes `v` at the index `idx` of the array it was given, as the reconstruction functions do
with `recon` (`source/libtomo/recon/art.c:93-110`, pointer from
`source/tomopy/util/extern/recon.py:200-222`). -/
def Arr.cWrite (h : Heap K) (a : Arr) (idx : List Nat) (v : K) : Heap K :=
  ⟨h.next, fun b => if b = a.buf then
      { h.buf b with get := fun p =>
          if p = a.view.offset + cflat a.view.shape idx then v else (h.buf b).get p }
    else h.buf b⟩

end Ptr

/-- `arr[::s]` for a one-dimensional array, `s` not zero (numpy basic slicing, what a caller may pass
as `theta` to `source/tomopy/recon/algorithm.py:313,472`). -/
def stepSlice (a : Arr) (s : Int) : Arr :=
  match a.view.shape with
  | [n] =>
    { a with
      view :=
        { shape := [(n + s.natAbs - 1) / s.natAbs]
          strides := [s * a.view.strides.headD 0]
          offset := if 0 < s then a.view.offset
            else a.view.offset + (n - 1) * a.view.strides.headD 0 }
      base := .array a.base }
  | _ => a

/-- `arr.transpose()` (`arr.T`) of an array: all axes reversed (numpy; what a caller may pass as
`obj` to `source/tomopy/sim/project.py:301`). -/
def transpose (a : Arr) : Arr :=
  { a with
    view := { a.view with shape := a.view.shape.reverse, strides := a.view.strides.reverse }
    base := .array a.base }

end Tomopy.Dtype
