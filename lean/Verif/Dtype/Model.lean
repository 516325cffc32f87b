import Verif.Base
import Mathlib.Data.List.Forall2
import Mathlib.Algebra.BigOperators.Group.List.Basic

/-!
# `tomopy.util.dtype`: conversions and shared memory, and how `distribute_jobs` uses them

Arrays are references: a buffer of the heap and a strided view of it, as in numpy.  This is the
part of `distribute_jobs` that `Verif.Mproc` takes for granted: that the workers see the arrays of
the caller.
-/

set_option linter.unusedSectionVars false

namespace Tomopy.Dtype

/-- Element types (`source/tomopy/util/dtype.py:101-119`). -/
inductive DType
  | float32 | float64 | int32 | uint16 | uint8
  deriving DecidableEq, Repr

/-- Bytes per element (`source/tomopy/util/dtype.py:178,187`). -/
def DType.itemsize : DType → Nat
  | .float32 => 4
  | .float64 => 8
  | .int32 => 4
  | .uint16 => 2
  | .uint8 => 1

/-- A numpy view: shape, strides and offset, the latter two in elements
(`source/tomopy/util/dtype.py:168-219`). -/
structure View where
  shape : List Nat
  strides : List Int
  offset : Int
  deriving DecidableEq, Repr

/-- Position in the buffer of an index (numpy indexing, `source/tomopy/util/dtype.py:182`). -/
def View.pos (v : View) (idx : List Nat) : Int :=
  v.offset + (List.zipWith (fun (s : Int) (i : Nat) => s * i) v.strides idx).sum

/-- Indices of an array of a shape (`source/tomopy/util/dtype.py:182`: `arr[:]`). -/
def InShape (shape idx : List Nat) : Prop := List.Forall₂ (· < ·) idx shape

/-- Strides of a C-contiguous array (`source/tomopy/util/dtype.py:180,214`). -/
def cStrides : List Nat → List Int
  | [] => []
  | _ :: s => (s.prod : Int) :: cStrides s

/-- The array `np.frombuffer(obj).reshape(shape)` (`source/tomopy/util/dtype.py:178-180,187`). -/
def cView (shape : List Nat) : View := ⟨shape, cStrides shape, 0⟩

/-- Row-major position of an index (`source/tomopy/util/dtype.py:180`). -/
def cflat : List Nat → List Nat → Nat
  | _ :: s, i :: is => i * s.prod + cflat s is
  | _, _ => 0

/-- Index of a row-major position (`source/tomopy/util/dtype.py:180-182`). -/
def unflat : List Nat → Nat → List Nat
  | [], _ => []
  | _ :: s, n => n / s.prod :: unflat s (n % s.prod)

/-- What `arr.base` can be: nothing (the array owns its memory), a `RawArray` of
`multiprocessing.sharedctypes`, another object without an attribute `base`, or an array
(`source/tomopy/util/dtype.py:190-210`). -/
inductive Base
  | none
  | raw
  | other
  | array (b : Base)
  deriving DecidableEq, Repr

/-- An ndarray: buffer, element type, view and `base`
(`source/tomopy/util/dtype.py:83-98,168-219`). -/
structure Arr where
  buf : Nat
  dtype : DType
  view : View
  base : Base
  deriving DecidableEq, Repr

/-- A block of memory: number and type of the elements it was made for, and contents
(`source/tomopy/util/dtype.py:175,226`). -/
structure Buffer (K : Type) where
  len : Nat
  dtype : DType
  get : Int → K

/-- The heap: buffers and the next free one (`source/tomopy/util/dtype.py:175`). -/
structure Heap (K : Type) where
  next : Nat
  buf : Nat → Buffer K

/-- Element of an array (`source/tomopy/util/dtype.py:182`).  An array whose type differs from that
of its buffer (`np.frombuffer`, line 187) reads the bytes anew: `pun` gives the elements so read. -/
def Arr.read {K : Type} (pun : DType → DType → (Int → K) → Int → K) (h : Heap K) (a : Arr)
    (idx : List Nat) : K :=
  if (h.buf a.buf).dtype = a.dtype then (h.buf a.buf).get (a.view.pos idx)
  else pun (h.buf a.buf).dtype a.dtype (h.buf a.buf).get (a.view.pos idx)

/-- `is_sharedmem` on `arr.base` (`source/tomopy/util/dtype.py:190-201`): follows `base`; an object
without that attribute ends in the `except` clause. -/
def isSharedmem : Base → Bool
  | .none => false
  | .raw => true
  | .other => false
  | .array b => isSharedmem b

/-- What `get_shared_mem` returns (`source/tomopy/util/dtype.py:204-210`). -/
inductive Root
  | none
  | raw
  | other
  deriving DecidableEq, Repr

/-- `get_shared_mem` (`source/tomopy/util/dtype.py:204-210`) on `arr.base`. -/
def getSharedMem : Base → Root
  | .none => .none
  | .raw => .raw
  | .other => .other
  | .array b => getSharedMem b

section Heap

variable {K : Type} (pun : DType → DType → (Int → K) → Int → K)

/-- A new buffer holding the elements of an array in row-major order, and the array made of it
(`source/tomopy/util/dtype.py:172-183`; `np.array` likewise with `conv`, the conversion of the
elements, lines 86,95).  Simplification: numpy's copies to another type keep the order the axes have
in memory; `Verif.Dtype.PtrModel` has that, here only the elements matter. -/
def freshCopy (h : Heap K) (a : Arr) (d : DType) (conv : K → K) (base : Base) : Arr × Heap K :=
  (⟨h.next, d, cView a.view.shape, base⟩,
    ⟨h.next + 1, fun b => if b = h.next then
        ⟨a.view.shape.prod, d, fun n => conv (a.read pun h (unflat a.view.shape n.toNat))⟩
      else h.buf b⟩)

/-- `as_sharedmem` (`source/tomopy/util/dtype.py:168-183`).  The copy is `reshape` of `frombuffer`:
an array whose base is an array whose base is the `RawArray`.  Simplification: arrays with at
least one axis and one element. -/
def asSharedmem (h : Heap K) (a : Arr) (copy : Bool) : Arr × Heap K :=
  if copy = false ∧ isSharedmem a.base = true then (a, h)
  else freshCopy pun h a a.dtype id (.array .raw)

/-- `to_numpy_array(obj, dtype, shape)` (`source/tomopy/util/dtype.py:186-187`) where `obj` is the
whole buffer `b`: ValueError unless the bytes make up exactly the elements of the shape. -/
def toNumpyArray (h : Heap K) (b : Nat) (d : DType) (shape : List Nat) : Except PyErr Arr :=
  if (h.buf b).len * (h.buf b).dtype.itemsize = shape.prod * d.itemsize then
    .ok ⟨b, d, cView shape, .array .raw⟩
  else .error .value

/-- An input of `distribute_jobs` as the workers see it before slicing
(`source/tomopy/util/mproc.py:259-262,377`): `intype` is the type of the last input (line 292).
`np.frombuffer` of an object that is no buffer (`None`) raises (TypeError). -/
def workerInput (h : Heap K) (a : Arr) (intype : DType) : Except PyErr (Arr × Heap K) :=
  let (s, h') := asSharedmem pun h a false
  match getSharedMem s.base with
  | .raw => (toNumpyArray h' s.buf intype a.view.shape).map fun r => (r, h')
  | _ => .error .type

/-- `is_contiguous` (`source/tomopy/util/dtype.py:213-214`).  Simplification: numpy ignores the
stride of an axis of length one, this compares all strides. -/
def isContiguous (a : Arr) : Bool := a.view.strides == cStrides a.view.shape

/-- The given `out` of `distribute_jobs` as the workers write it
(`source/tomopy/util/mproc.py:274-277,383`): here `SHARED_OUT` is the array, and `np.frombuffer`
of an array starts at its first element but needs it to be C-contiguous (BufferError/ValueError). -/
def workerOut (h : Heap K) (out : Arr) : Except PyErr (Arr × Heap K) :=
  let (s, h') := asSharedmem pun h out false
  if isContiguous s then .ok (⟨s.buf, out.dtype, ⟨out.view.shape, cStrides out.view.shape,
    s.view.offset⟩, .array s.base⟩, h')
  else .error .value

/-- What the caller passes to `as_ndarray`: an array, or something else that numpy turns into an
array — here given as that array (`source/tomopy/util/dtype.py:83-89`). -/
inductive Arg
  | array (a : Arr)
  | seq (a : Arr)

/-- `as_ndarray` (`source/tomopy/util/dtype.py:83-89`); `conv` converts elements to the type asked
for.  `copy` only matters for objects that are no arrays, which are copied in any case. -/
def asNdarray (conv : DType → DType → K → K) (h : Heap K) (x : Arg) (d : Option DType)
    (_copy : Bool) : Arr × Heap K :=
  match x with
  | .array a => (a, h)
  | .seq a => freshCopy pun h a (d.getD a.dtype) (conv a.dtype (d.getD a.dtype)) .none

/-- `as_dtype` (`source/tomopy/util/dtype.py:92-98`): `np.asarray` to another type copies, so
`copy` makes no difference. -/
def asDtype (conv : DType → DType → K → K) (h : Heap K) (a : Arr) (d : DType) (_copy : Bool) :
    Arr × Heap K :=
  if a.dtype = d then (a, h) else freshCopy pun h a d (conv a.dtype d) .none

/-- `as_float32` (`source/tomopy/util/dtype.py:101-103`); `as_int32`, `as_uint16` and `as_uint8`
(lines 106-118) differ in the type only. -/
def asType (conv : DType → DType → K → K) (h : Heap K) (x : Arg) (d : DType) : Arr × Heap K :=
  let (a, h') := asNdarray pun conv h x (some d) false
  asDtype pun conv h' a d false

/-- `empty_shared_array` (`source/tomopy/util/dtype.py:217-230`); the contents are zero (RawArray
clears its memory). -/
def emptySharedArray (h : Heap K) (zero : K) (shape : List Nat) (d : DType) : Arr × Heap K :=
  (⟨h.next, d, cView shape, .array .raw⟩,
    ⟨h.next + 1, fun b => if b = h.next then ⟨shape.prod, d, fun _ => zero⟩ else h.buf b⟩)

/-- `np.swapaxes(arr, 0, 1)`: a view (`source/tomopy/sim/project.py:330`,
`source/tomopy/recon/algorithm.py:340`). -/
def swapaxes01 (a : Arr) : Arr :=
  { a with
    view := { a.view with
      shape := match a.view.shape with | x :: y :: s => y :: x :: s | s => s
      strides := match a.view.strides with | x :: y :: s => y :: x :: s | s => s }
    base := .array a.base }

/-- `arr[lo:hi]` along the first axis: a view (`source/tomopy/util/mproc.py:391-392`). -/
def sliceFirst (a : Arr) (lo hi : Nat) : Arr :=
  { a with
    view :=
      { shape := match a.view.shape with | _ :: s => (hi - lo) :: s | [] => []
        strides := a.view.strides
        offset := a.view.offset + lo * a.view.strides.headD 0 }
    base := .array a.base }

end Heap

end Tomopy.Dtype
