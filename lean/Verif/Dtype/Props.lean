import Verif.Dtype.Model
import Mathlib.Tactic.Linarith
import Mathlib.Tactic.Ring

/-! Theorems about conversions and shared memory. -/

set_option linter.unusedSectionVars false

namespace Tomopy.Dtype

theorem cflat_lt {shape idx : List Nat} (h : InShape shape idx) : cflat shape idx < shape.prod := by
  unfold InShape at h
  induction h with
  | nil => simp [cflat]
  | @cons i n is s hi _ ih =>
    rw [cflat, List.prod_cons]
    calc i * s.prod + cflat s is < i * s.prod + s.prod := by omega
      _ = (i + 1) * s.prod := by ring
      _ ≤ n * s.prod := Nat.mul_le_mul_right _ hi

theorem unflat_cflat {shape idx : List Nat} (h : InShape shape idx) :
    unflat shape (cflat shape idx) = idx := by
  unfold InShape at h
  induction h with
  | nil => rfl
  | @cons i n is s hi hs ih =>
    have hlt := cflat_lt hs
    have hp : 0 < s.prod := by omega
    rw [cflat, unflat]
    have h1 : (i * s.prod + cflat s is) / s.prod = i := by
      rw [Nat.add_comm, Nat.add_mul_div_right _ _ hp, Nat.div_eq_of_lt hlt, Nat.zero_add]
    have h2 : (i * s.prod + cflat s is) % s.prod = cflat s is := by
      rw [Nat.add_comm, Nat.add_mul_mod_self_right, Nat.mod_eq_of_lt hlt]
    rw [h1, h2, ih]

theorem cView_sum {shape idx : List Nat} (h : InShape shape idx) :
    (List.zipWith (fun (s : Int) (i : Nat) => s * i) (cStrides shape) idx).sum
      = (cflat shape idx : Int) := by
  unfold InShape at h
  induction h with
  | nil => rfl
  | @cons i n is s hi hs ih =>
    rw [cStrides, List.zipWith_cons_cons, List.sum_cons, ih, cflat]
    push_cast
    ring

theorem cView_pos {shape idx : List Nat} (h : InShape shape idx) :
    (cView shape).pos idx = (cflat shape idx : Int) := by
  rw [View.pos, cView, cView_sum h]; simp

section Heap

variable {K : Type} (pun : DType → DType → (Int → K) → Int → K)

/-- A copy has the shape and the (converted) elements of the original, and no array that existed
before is changed. -/
theorem freshCopy_spec (h : Heap K) (a : Arr) (d : DType) (conv : K → K) (base : Base) :
    (freshCopy pun h a d conv base).1.buf = h.next ∧
    (freshCopy pun h a d conv base).1.view = cView a.view.shape ∧
    (∀ idx, InShape a.view.shape idx →
      (freshCopy pun h a d conv base).1.read pun (freshCopy pun h a d conv base).2 idx
        = conv (a.read pun h idx)) ∧
    (∀ b : Arr, b.buf ≠ h.next → ∀ idx,
      b.read pun (freshCopy pun h a d conv base).2 idx = b.read pun h idx) := by
  refine ⟨rfl, rfl, fun idx hi => ?_, fun b hb idx => ?_⟩
  · simp only [freshCopy]
    rw [Arr.read]
    simp only [if_pos]
    rw [cView_pos hi, Int.toNat_natCast, unflat_cflat hi]
  · simp only [freshCopy, Arr.read, if_neg hb]

/-- `as_sharedmem` returns an array in shared memory with the type, shape and elements of its
argument; nothing else is changed; with `copy=True`, or if the argument is not in shared memory, it
is a new block of memory, otherwise it is the argument itself. -/
theorem asSharedmem_spec (h : Heap K) (a : Arr) (copy : Bool) :
    let r := asSharedmem pun h a copy
    r.1.dtype = a.dtype ∧ r.1.view.shape = a.view.shape ∧ isSharedmem r.1.base = true ∧
    (∀ idx, InShape a.view.shape idx → r.1.read pun r.2 idx = a.read pun h idx) ∧
    (∀ b : Arr, b.buf ≠ h.next → ∀ idx, b.read pun r.2 idx = b.read pun h idx) ∧
    ((copy = true ∨ isSharedmem a.base = false) → r.1.buf = h.next) ∧
    ((copy = false ∧ isSharedmem a.base = true) → r.1 = a ∧ r.2 = h) := by
  intro r
  by_cases hc : copy = false ∧ isSharedmem a.base = true
  · have hr : r = (a, h) := if_pos hc
    rw [hr]
    refine ⟨rfl, rfl, hc.2, fun _ _ => rfl, fun _ _ _ => rfl, fun h' => ?_, fun _ => ⟨rfl, rfl⟩⟩
    rcases h' with h' | h'
    · rw [hc.1] at h'; cases h'
    · rw [hc.2] at h'; cases h'
  · have hr : r = freshCopy pun h a a.dtype id (.array .raw) := if_neg hc
    obtain ⟨h1, h2, h3, h4⟩ := freshCopy_spec pun h a a.dtype id (.array .raw)
    rw [hr]
    exact ⟨rfl, by rw [h2]; rfl, rfl, h3, h4, fun _ => h1, fun h' => absurd h' hc⟩

/-- `is_sharedmem` is true exactly if the chain of bases ends in a shared `RawArray`, which
`get_shared_mem` then returns. -/
theorem isSharedmem_iff (b : Base) : isSharedmem b = true ↔ getSharedMem b = .raw := by
  induction b with
  | none => simp [isSharedmem, getSharedMem]
  | raw => simp [isSharedmem, getSharedMem]
  | other => simp [isSharedmem, getSharedMem]
  | array b ih => simpa [isSharedmem, getSharedMem] using ih

/-- The workers of `distribute_jobs` see the caller's array if that is not in shared memory: any
shape, any strides (transposed, reversed, strided arrays). -/
theorem worker_reads_copied (h : Heap K) (a : Arr) (ha : isSharedmem a.base = false) :
    ∃ r h', workerInput pun h a a.dtype = .ok (r, h') ∧ r.view.shape = a.view.shape ∧
      r.dtype = a.dtype ∧ r.buf = h.next ∧
      ∀ idx, InShape a.view.shape idx → r.read pun h' idx = a.read pun h idx := by
  have hs : asSharedmem pun h a false = freshCopy pun h a a.dtype id (.array .raw) :=
    if_neg (by rw [ha]; simp)
  obtain ⟨_, _, h3, _⟩ := freshCopy_spec pun h a a.dtype id (.array .raw)
  refine ⟨⟨h.next, a.dtype, cView a.view.shape, .array .raw⟩,
    (freshCopy pun h a a.dtype id (.array .raw)).2, ?_, rfl, rfl, rfl, h3⟩
  simp only [workerInput, hs, freshCopy, getSharedMem, toNumpyArray]
  rw [if_pos (by simp)]
  rfl

/-- They also see it, without a copy, if it is the whole shared block in its own order. -/
theorem worker_reads_whole (h : Heap K) (a : Arr) (ha : isSharedmem a.base = true)
    (hv : a.view = cView a.view.shape) (hlen : (h.buf a.buf).len = a.view.shape.prod)
    (hd : (h.buf a.buf).dtype = a.dtype) :
    ∃ r, workerInput pun h a a.dtype = .ok (r, h) ∧ r.buf = a.buf ∧
      ∀ idx, r.read pun h idx = a.read pun h idx := by
  have hs : asSharedmem pun h a false = (a, h) := if_pos ⟨rfl, ha⟩
  refine ⟨⟨a.buf, a.dtype, cView a.view.shape, .array .raw⟩, ?_, rfl, fun idx => ?_⟩
  · simp only [workerInput, hs, (isSharedmem_iff _).1 ha, toNumpyArray]
    rw [if_pos (by rw [hlen, hd])]
    rfl
  · simp only [Arr.read, ← hv]

/-- `project` and `recon` hand such arrays out (`empty_shared_array`, `as_sharedmem(copy=True)`). -/
theorem empty_shared_whole (h : Heap K) (zero : K) (shape : List Nat) (d : DType) :
    let r := emptySharedArray h zero shape d
    isSharedmem r.1.base = true ∧ r.1.view = cView r.1.view.shape ∧
      (r.2.buf r.1.buf).len = r.1.view.shape.prod ∧ (r.2.buf r.1.buf).dtype = r.1.dtype ∧
      ∀ idx, r.1.read pun r.2 idx = zero := by
  intro r
  refine ⟨rfl, rfl, ?_, ?_, fun idx => ?_⟩ <;> simp [r, emptySharedArray, Arr.read, cView]

theorem copied_shared_whole (h : Heap K) (a : Arr) :
    let r := asSharedmem pun h a true
    isSharedmem r.1.base = true ∧ r.1.view = cView r.1.view.shape ∧
      (r.2.buf r.1.buf).len = r.1.view.shape.prod ∧ (r.2.buf r.1.buf).dtype = r.1.dtype := by
  intro r
  refine ⟨?_, ?_, ?_, ?_⟩ <;> simp [r, asSharedmem, freshCopy, isSharedmem, cView]

/-- What the workers see of a view of a shared block: if the view has as many elements as the
block, the block in its own order, whatever the offset and the strides of the view; ValueError
otherwise. -/
theorem worker_view (h : Heap K) (a : Arr) (ha : isSharedmem a.base = true)
    (hd : (h.buf a.buf).dtype = a.dtype) :
    ((h.buf a.buf).len ≠ a.view.shape.prod → workerInput pun h a a.dtype = .error .value) ∧
    ((h.buf a.buf).len = a.view.shape.prod →
      ∃ r, workerInput pun h a a.dtype = .ok (r, h) ∧
        ∀ idx, InShape a.view.shape idx →
          r.read pun h idx = (h.buf a.buf).get (cflat a.view.shape idx)) := by
  have hs : asSharedmem pun h a false = (a, h) := if_pos ⟨rfl, ha⟩
  constructor
  · intro hne
    simp only [workerInput, hs, (isSharedmem_iff _).1 ha, toNumpyArray]
    rw [if_neg]
    · rfl
    · rw [hd]
      intro hc
      exact hne (Nat.eq_of_mul_eq_mul_right (by cases a.dtype <;> decide) hc)
  · intro heq
    refine ⟨⟨a.buf, a.dtype, cView a.view.shape, .array .raw⟩, ?_, fun idx hi => ?_⟩
    · simp only [workerInput, hs, (isSharedmem_iff _).1 ha, toNumpyArray]
      rw [if_pos (by rw [heq, hd])]
      rfl
    · simp only [Arr.read, hd, if_true]
      rw [cView_pos hi]

/-- REFUTED: the workers see the caller's array.  A slice of a shared array (for instance of the
result of `project`) makes `distribute_jobs` raise. -/
theorem worker_slice_raises (h : Heap K) (zero : K) (d : DType) (n m lo hi : Nat) (hm : 0 < m)
    (_hlo : lo ≤ hi) (_hhi : hi ≤ n) (hne : hi - lo ≠ n) :
    let r := emptySharedArray h zero [n, m] d
    workerInput pun r.2 (sliceFirst r.1 lo hi) d = .error .value := by
  intro r
  have := (worker_view pun r.2 (sliceFirst r.1 lo hi) rfl (by simp [r, emptySharedArray, sliceFirst])).1
  apply this
  simp only [r, emptySharedArray, sliceFirst, cView, if_true, List.prod_cons, List.prod_nil, mul_one]
  intro hc
  exact hne (Nat.eq_of_mul_eq_mul_right hm hc).symm

example : (1 : Nat) ≤ 3 ∧ 3 ≤ 4 ∧ 3 - 1 ≠ 4 := by decide

/-- REFUTED, without an exception: the workers read the swapped view of a shared array in the order
of the block.  Element `(j, i, k)` of the view lies at `i*b*c + j*c + k` of the block of shape
`(a, b, c)`, the workers read `j*a*c + i*c + k`. -/
theorem worker_swapped (h : Heap K) (x : Arr) (a b c : Nat) (hx : isSharedmem x.base = true)
    (hv : x.view = cView [a, b, c]) (hlen : (h.buf x.buf).len = a * b * c)
    (hd : (h.buf x.buf).dtype = x.dtype) :
    ∃ r, workerInput pun h (swapaxes01 x) x.dtype = .ok (r, h) ∧
      ∀ i j k, i < a → j < b → k < c →
        r.read pun h [j, i, k] = (h.buf x.buf).get ((j * (a * c) + (i * c + k) : Nat) : Int) ∧
        (swapaxes01 x).read pun h [j, i, k]
          = (h.buf x.buf).get ((i * (b * c) + (j * c + k) : Nat) : Int) := by
  have hshape : (swapaxes01 x).view.shape = [b, a, c] := by simp [swapaxes01, hv, cView]
  have hstr : (swapaxes01 x).view.strides = [((c * 1 : Nat) : Int), ((b * (c * 1) : Nat) : Int), 1] := by
    simp [swapaxes01, hv, cView, cStrides]
  have hoff : (swapaxes01 x).view.offset = 0 := by simp [swapaxes01, hv, cView]
  obtain ⟨r, hr, hval⟩ := (worker_view pun h (swapaxes01 x) hx hd).2
    (by rw [hshape]; simp only [swapaxes01, hlen, List.prod_cons, List.prod_nil]; ring)
  refine ⟨r, hr, fun i j k hi hj hk => ⟨?_, ?_⟩⟩
  · rw [hval [j, i, k] (by rw [hshape]; exact .cons hj (.cons hi (.cons hk .nil))), hshape]
    simp [cflat, swapaxes01]
  · have hd' : (h.buf (swapaxes01 x).buf).dtype = (swapaxes01 x).dtype := hd
    rw [Arr.read, if_pos hd', View.pos, hstr, hoff]
    simp only [List.zipWith_cons_cons, List.zipWith_nil_left, List.sum_cons, List.sum_nil]
    have : (swapaxes01 x).buf = x.buf := rfl
    rw [this]
    congr 1
    push_cast
    ring

/-- So with two or more of both axes there are data for which the workers see a wrong element. -/
theorem worker_swapped_wrong (x : Arr) (h : Heap Int) (pun : DType → DType → (Int → Int) → Int → Int)
    (a b c : Nat) (ha : 2 ≤ a) (hb : 2 ≤ b) (hc : 1 ≤ c) (hx : isSharedmem x.base = true)
    (hv : x.view = cView [a, b, c]) (hbuf : h.buf x.buf = ⟨a * b * c, x.dtype, fun n => n⟩) :
    ∃ r, workerInput pun h (swapaxes01 x) x.dtype = .ok (r, h) ∧
      r.read pun h [1, 0, 0] ≠ (swapaxes01 x).read pun h [1, 0, 0] := by
  obtain ⟨r, hr, hval⟩ := worker_swapped pun h x a b c hx hv (by rw [hbuf]) (by rw [hbuf])
  refine ⟨r, hr, ?_⟩
  obtain ⟨h1, h2⟩ := hval 0 1 0 (by omega) (by omega) (by omega)
  rw [h1, h2, hbuf]
  intro hcon
  dsimp only at hcon
  have h3 : (1 * (a * c) + (0 * c + 0)) = 0 * (b * c) + (1 * c + 0) := by exact_mod_cast hcon
  have h4 : 2 * c ≤ a * c := Nat.mul_le_mul_right c ha
  omega

example : isSharedmem (.array .raw) = true ∧
    (⟨0, .float32, cView [2, 2, 1], .array .raw⟩ : Arr).view = cView [2, 2, 1] ∧
    ∃ h : Heap Int, h.buf 0 = ⟨2 * 2 * 1, .float32, fun n => n⟩ :=
  ⟨rfl, rfl, ⟨1, fun _ => ⟨4, .float32, fun n => n⟩⟩, rfl⟩

/-- REFUTED: inputs of different types.  Every input is read with the type of the last one, so an
unshared input whose elements have another size makes `distribute_jobs` raise. -/
theorem worker_mixed_raises (h : Heap K) (a : Arr) (d : DType) (ha : isSharedmem a.base = false)
    (hsize : a.dtype.itemsize ≠ d.itemsize) (hn : 0 < a.view.shape.prod) :
    workerInput pun h a d = .error .value := by
  have hs : asSharedmem pun h a false = freshCopy pun h a a.dtype id (.array .raw) :=
    if_neg (by rw [ha]; simp)
  simp only [workerInput, hs, freshCopy, getSharedMem, toNumpyArray]
  rw [if_neg]
  · rfl
  · simp only [if_true]
    exact fun hc => hsize (Nat.eq_of_mul_eq_mul_left hn hc)

/-- With elements of the same size their bytes are read as the other type. -/
theorem worker_mixed_garbled (h : Heap K) (a : Arr) (d : DType) (ha : isSharedmem a.base = false)
    (hne : a.dtype ≠ d) (hsize : a.dtype.itemsize = d.itemsize) :
    ∃ r h', workerInput pun h a d = .ok (r, h') ∧ ∃ g : Int → K,
      (∀ idx, InShape a.view.shape idx → g (cflat a.view.shape idx) = a.read pun h idx) ∧
      ∀ idx, InShape a.view.shape idx →
        r.read pun h' idx = pun a.dtype d g (cflat a.view.shape idx) := by
  have hs : asSharedmem pun h a false = freshCopy pun h a a.dtype id (.array .raw) :=
    if_neg (by rw [ha]; simp)
  refine ⟨⟨h.next, d, cView a.view.shape, .array .raw⟩,
    (freshCopy pun h a a.dtype id (.array .raw)).2, ?_,
    fun n => a.read pun h (unflat a.view.shape n.toNat), fun idx hi => ?_, fun idx hi => ?_⟩
  · simp only [workerInput, hs, freshCopy, getSharedMem, toNumpyArray]
    rw [if_pos (by simp [hsize])]
    rfl
  · change a.read pun h (unflat a.view.shape (Int.toNat (cflat a.view.shape idx : Int))) = _
    rw [Int.toNat_natCast, unflat_cflat hi]
  · simp only [freshCopy, Arr.read, if_true, if_neg hne]
    rw [cView_pos hi]
    rfl

example : DType.float32 ≠ .int32 ∧ DType.float32.itemsize = DType.int32.itemsize ∧
    DType.float32.itemsize ≠ DType.float64.itemsize := by decide

/-- The output array is written where the caller has it: for C-contiguous `out` in shared memory —
also a part of a larger block — every element of the workers' array is that element of `out`. -/
theorem worker_out_shared (h : Heap K) (out : Arr) (hs : isSharedmem out.base = true)
    (hc : isContiguous out = true) :
    ∃ r, workerOut pun h out = .ok (r, h) ∧ r.buf = out.buf ∧ r.view.shape = out.view.shape ∧
      ∀ idx, r.view.pos idx = out.view.pos idx := by
  have hsm : asSharedmem pun h out false = (out, h) := if_pos ⟨rfl, hs⟩
  have hst : out.view.strides = cStrides out.view.shape := by
    simpa [isContiguous] using hc
  refine ⟨⟨out.buf, out.dtype, ⟨out.view.shape, cStrides out.view.shape, out.view.offset⟩,
    .array out.base⟩, by simp only [workerOut, hsm, hc, if_true], rfl, rfl, fun idx => ?_⟩
  simp only [View.pos, hst]

/-- REFUTED: a shared `out` that is not contiguous (a swapped view) makes `distribute_jobs`
raise. -/
theorem worker_out_raises (h : Heap K) (out : Arr) (hs : isSharedmem out.base = true)
    (hc : isContiguous out = false) : workerOut pun h out = .error .value := by
  have hsm : asSharedmem pun h out false = (out, h) := if_pos ⟨rfl, hs⟩
  simp [workerOut, hsm, hc]

example : isContiguous (swapaxes01 ⟨0, .float32, cView [2, 3, 4], .array .raw⟩) = false ∧
    isContiguous (sliceFirst ⟨0, .float32, cView [2, 3, 4], .array .raw⟩ 1 2) = true := by decide

/-- Conversions (`as_float32` and so on): the result has the type asked for, the shape and the
converted elements of the argument, and no existing array changes. -/
theorem asType_spec (conv : DType → DType → K → K) (hconv : ∀ d v, conv d d v = v) (h : Heap K)
    (x : Arg) (d : DType) :
    let r := asType pun conv h x d
    let a := match x with | .array a => a | .seq a => a
    r.1.dtype = d ∧ r.1.view.shape = a.view.shape ∧
    (∀ idx, InShape a.view.shape idx →
      r.1.read pun r.2 idx = conv a.dtype d (a.read pun h idx)) ∧
    (∀ b : Arr, b.buf < h.next → ∀ idx, b.read pun r.2 idx = b.read pun h idx) := by
  intro r a
  cases x with
  | array a' =>
    by_cases hd : a'.dtype = d
    · have hr : r = (a', h) := by simp only [r, asType, asNdarray, asDtype, hd, if_true]
      rw [hr]
      refine ⟨hd, rfl, fun idx _ => ?_, fun _ _ _ => rfl⟩
      change a'.read pun h idx = conv a'.dtype d (a'.read pun h idx)
      rw [hd, hconv]
    · have hr : r = freshCopy pun h a' d (conv a'.dtype d) .none := by
        simp only [r, asType, asNdarray, asDtype]
        exact if_neg hd
      obtain ⟨h1, h2, h3, h4⟩ := freshCopy_spec pun h a' d (conv a'.dtype d) .none
      rw [hr]
      exact ⟨rfl, by rw [h2]; rfl, h3, fun b hb idx => h4 b (by omega) idx⟩
  | seq a' =>
    have hr : r = freshCopy pun h a' d (conv a'.dtype d) .none := by
      simp only [r, asType, asNdarray, asDtype, Option.getD_some]
      exact if_pos rfl
    obtain ⟨h1, h2, h3, h4⟩ := freshCopy_spec pun h a' d (conv a'.dtype d) .none
    rw [hr]
    exact ⟨rfl, by rw [h2]; rfl, h3, fun b hb idx => h4 b (by omega) idx⟩

/-- REFUTED: `copy=True` gives a copy.  An ndarray, or an array that has the type already, is
returned itself: writing to the result writes to the argument. -/
theorem copy_is_alias (conv : DType → DType → K → K) (h : Heap K) (a : Arr) (d : Option DType) :
    asNdarray pun conv h (.array a) d true = (a, h) ∧
      asDtype pun conv h a a.dtype true = (a, h) :=
  ⟨rfl, if_pos rfl⟩

/-- REFUTED: `as_ndarray(arr, dtype)` gives that type.  An ndarray keeps its own. -/
theorem asNdarray_keeps_type (conv : DType → DType → K → K) (h : Heap K) (a : Arr) (d : DType)
    (hne : a.dtype ≠ d) (copy : Bool) :
    (asNdarray pun conv h (.array a) (some d) copy).1.dtype ≠ d := hne

end Heap

end Tomopy.Dtype
