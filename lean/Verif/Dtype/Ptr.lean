import Verif.Dtype.PtrModel
import Verif.Dtype.Props
import Mathlib.Data.List.GetD
import Mathlib.Tactic.Ring
import Mathlib.Tactic.Linarith

/-!
# C98, C99: what the C code sees of the arrays it is given
-/

set_option linter.unusedSectionVars false

namespace Tomopy.Dtype

theorem rowMajor_sum {shape : List Nat} {strides : List Int} {idx : List Nat}
    (hr : rowMajor shape strides = true) (h : InShape shape idx) :
    (List.zipWith (fun (s : Int) (i : Nat) => s * i) strides idx).sum = (cflat shape idx : Int) := by
  unfold InShape at h
  induction h generalizing strides with
  | nil => cases strides <;> simp_all [rowMajor, cflat]
  | @cons i n is s hi hs ih =>
    cases strides with
    | nil => simp [rowMajor] at hr
    | cons t ts =>
      simp only [rowMajor, Bool.and_eq_true, Bool.or_eq_true, beq_iff_eq] at hr
      rw [List.zipWith_cons_cons, List.sum_cons, ih hr.2, cflat]
      push_cast
      rcases hr.1 with h1 | h1
      · have : i = 0 := by omega
        subst this; simp
      · rw [h1]; ring

theorem inShape_prod_pos {shape idx : List Nat} (h : InShape shape idx) : 0 < shape.prod := by
  have := cflat_lt h; omega

theorem contiguous_pos {v : View} {idx : List Nat} (hc : v.cContiguous = true)
    (h : InShape v.shape idx) : v.pos idx = v.offset + (cflat v.shape idx : Int) := by
  have hp := inShape_prod_pos h
  have hr : rowMajor v.shape v.strides = true := by
    simp only [View.cContiguous, Bool.or_eq_true, beq_iff_eq] at hc
    rcases hc with h0 | h0
    · omega
    · exact h0
  rw [View.pos, rowMajor_sum hr h]

theorem rowMajor_cStrides (shape : List Nat) : rowMajor shape (cStrides shape) = true := by
  induction shape with
  | nil => rfl
  | cons n s ih => simp [cStrides, rowMajor, ih]

theorem cView_contiguous (shape : List Nat) : (cView shape).cContiguous = true := by
  simp [View.cContiguous, cView, rowMajor_cStrides]

theorem cStrides_length (s : List Nat) : (cStrides s).length = s.length := by
  induction s with
  | nil => rfl
  | cons n s ih => simp [cStrides, ih]

theorem kAxes_perm (v : View) : (kAxes v).Perm (List.range v.shape.length) := by
  unfold kAxes
  split
  · exact List.Perm.refl _
  · exact List.perm_insertionSort _ _

theorem kAxes_nodup (v : View) : (kAxes v).Nodup := (kAxes_perm v).nodup_iff.mpr List.nodup_range

theorem kAxes_one (v : View) (n : Nat) (hs : v.shape = [n]) : kAxes v = [0] := by
  unfold kAxes
  split <;> simp [hs]

theorem kView_contiguous (v : View) (hc : v.cContiguous = true) : (kView v).cContiguous = true := by
  have hp : kAxes v = List.range v.shape.length := by rw [kAxes, if_pos hc]
  have hm : (List.range v.shape.length).map (v.shape.getD · 0) = v.shape := by
    refine List.ext_getElem (by simp) fun i h1 h2 => ?_
    simp [List.getElem?_eq_getElem h2]
  have hst : (kView v).strides = cStrides v.shape := by
    simp only [kView, hp, hm]
    refine List.ext_getElem (by simp [cStrides_length]) fun i h1 h2 => ?_
    have hi : i < v.shape.length := by simpa using h1
    have hx : (List.range v.shape.length).idxOf i = i := by
      have := (List.nodup_range (n := v.shape.length)).idxOf_getElem i (by simpa using hi)
      simpa using this
    simp [hx, List.getElem?_eq_getElem h2]
  have hsh : (kView v).shape = v.shape := rfl
  simp [View.cContiguous, hst, hsh, rowMajor_cStrides]

theorem map_getD_range (l : List Nat) (d : Nat) (hd : l.length = d) :
    (List.range d).map (l.getD · 0) = l := by
  subst hd
  refine List.ext_getElem (by simp) fun i h1 h2 => ?_
  simp [List.getElem?_eq_getElem h2]

theorem inShape_perm {v : View} {idx : List Nat} (h : InShape v.shape idx) :
    InShape ((kAxes v).map (v.shape.getD · 0)) ((kAxes v).map (idx.getD · 0)) := by
  unfold InShape at h ⊢
  have hl := h.length_eq
  rw [List.forall₂_map_left_iff, List.forall₂_map_right_iff, List.forall₂_same]
  intro k hk
  have hk' : k < v.shape.length := by
    simpa using (kAxes_perm v).mem_iff.mp hk
  have hki : k < idx.length := by omega
  have := (List.forall₂_iff_get.mp h).2 k hki hk'
  simpa [List.getD_eq_getElem, hk', hki] using this

/-- Positions of the copy in order `K`. -/
theorem kView_pos {v : View} {idx : List Nat} (h : InShape v.shape idx) :
    (kView v).pos idx
      = (cflat ((kAxes v).map (v.shape.getD · 0)) ((kAxes v).map (idx.getD · 0)) : Int) := by
  have hl : idx.length = v.shape.length := h.length_eq
  rw [← cView_sum (inShape_perm h), View.pos]
  simp only [kView, zero_add]
  set perm := kAxes v with hperm
  set st := cStrides (perm.map (v.shape.getD · 0)) with hst
  have hstl : st.length = perm.length := by
    rw [hst, cStrides_length]; simp
  have h1 : List.zipWith (fun (s : Int) (i : Nat) => s * i)
      ((List.range v.shape.length).map fun k => st.getD (perm.idxOf k) 0) idx
      = (List.range v.shape.length).map fun k => st.getD (perm.idxOf k) 0 * (idx.getD k 0 : Int) := by
    refine List.ext_getElem (by simp [hl]) fun i h1 h2 => ?_
    have hi : i < idx.length := by simp at h1; omega
    simp [List.getElem?_eq_getElem hi]
  rw [h1, ← ((kAxes_perm v).map _).sum_eq]
  congr 1
  refine List.ext_getElem (by simp [hstl]; rfl) fun i h1 h2 => ?_
  have hi : i < perm.length := by simpa using h1
  have hi' : i < st.length := by omega
  have hidx : perm.idxOf perm[i] = i := (kAxes_nodup v).idxOf_getElem i hi
  simp only [List.getElem_map, List.getElem_zipWith]
  rw [show (kAxes v)[i] = perm[i] from rfl, hidx, List.getD_eq_getElem _ _ hi']

/-- The index of a position of the copy. -/
theorem unK_pos {v : View} {idx : List Nat} (h : InShape v.shape idx) :
    unK v ((kView v).pos idx).toNat = idx := by
  have hl : idx.length = v.shape.length := h.length_eq
  rw [kView_pos h, Int.toNat_natCast, unK]
  simp only [unflat_cflat (inShape_perm h)]
  conv_rhs => rw [← map_getD_range idx _ hl]
  refine List.map_congr_left fun k hk => ?_
  have hk' : k ∈ kAxes v := (kAxes_perm v).mem_iff.mpr hk
  have hlt : (kAxes v).idxOf k < (kAxes v).length := List.idxOf_lt_length_iff.mpr hk'
  rw [List.getD_eq_getElem _ _ (by simpa using hlt)]
  simp [List.getElem_idxOf]

section Ptr

variable {K : Type} (pun : DType → DType → (Int → K) → Int → K)

/-- The elements of an array lie in its buffer: what numpy guarantees for every array. -/
structure Arr.Valid (h : Heap K) (a : Arr) : Prop where
  alloc : a.buf < h.next
  rank : a.view.strides.length = a.view.shape.length
  mem : ∀ idx, InShape a.view.shape idx → 0 ≤ a.view.pos idx ∧
    (a.view.pos idx + 1) * a.dtype.itemsize ≤ (h.buf a.buf).len * (h.buf a.buf).dtype.itemsize

/-- What C should see: the elements of the array, index by index. -/
def SeenBy (h : Heap K) (a : Arr) (val : List Nat → K) (shape : List Nat) : Prop :=
  a.view.shape = shape ∧ ∀ idx, InShape shape idx → a.cElem pun h idx = some (val idx)

/-- A C-contiguous array is seen as it is. -/
theorem contiguous_seen (h : Heap K) (a : Arr) (hv : a.Valid h) (hc : a.view.cContiguous = true) :
    SeenBy pun h a (fun idx => a.read pun h idx) a.view.shape := by
  refine ⟨rfl, fun idx hidx => ?_⟩
  have hpos := contiguous_pos hc hidx
  have hb := hv.mem idx hidx
  rw [hpos] at hb
  simp only [Arr.cElem, Arr.cRead]
  rw [if_pos (by exact_mod_cast hb), Arr.read, hpos]

/-- A row-major copy is seen as the array it was made of. -/
theorem freshCopy_seen (h : Heap K) (a : Arr) (d : DType) (conv : K → K) (base : Base) :
    (freshCopy pun h a d conv base).1.Valid (freshCopy pun h a d conv base).2 ∧
    (freshCopy pun h a d conv base).1.view.cContiguous = true ∧
    SeenBy pun (freshCopy pun h a d conv base).2 (freshCopy pun h a d conv base).1
      (fun idx => conv (a.read pun h idx)) a.view.shape := by
  have hval : (freshCopy pun h a d conv base).1.Valid (freshCopy pun h a d conv base).2 := by
    refine ⟨by simp [freshCopy], cStrides_length _, fun idx hidx => ?_⟩
    have hidx' : InShape a.view.shape idx := hidx
    have hlt := cflat_lt hidx'
    have hp : (freshCopy pun h a d conv base).1.view.pos idx = (cflat a.view.shape idx : Int) :=
      cView_pos hidx'
    rw [hp]
    refine ⟨by positivity, ?_⟩
    simp only [freshCopy, if_true]
    have : (cflat a.view.shape idx : Int) + 1 ≤ (a.view.shape.prod : Int) := by exact_mod_cast hlt
    exact mul_le_mul_of_nonneg_right this (by positivity)
  have hcon : (freshCopy pun h a d conv base).1.view.cContiguous = true := cView_contiguous _
  refine ⟨hval, hcon, rfl, fun idx hidx => ?_⟩
  rw [(contiguous_seen pun _ _ hval hcon).2 idx hidx]
  exact congrArg some ((freshCopy_spec pun h a d conv base).2.2.1 idx hidx)

/-- The copy in order `K` holds the converted elements, whatever order it keeps them in. -/
theorem kCopy_spec (h : Heap K) (a : Arr) (d : DType) (conv : K → K) :
    (kCopy pun h a d conv).1.Valid (kCopy pun h a d conv).2 ∧
    ∀ idx, InShape a.view.shape idx →
      (kCopy pun h a d conv).1.read pun (kCopy pun h a d conv).2 idx = conv (a.read pun h idx) := by
  refine ⟨⟨by simp [kCopy], by simp [kCopy, kView], fun idx hidx => ?_⟩, fun idx hidx => ?_⟩
  · have hidx' : InShape a.view.shape idx := hidx
    have hp := kView_pos hidx'
    have hlt := cflat_lt (inShape_perm hidx')
    have hprod : ((kAxes a.view).map (a.view.shape.getD · 0)).prod = a.view.shape.prod := by
      rw [((kAxes_perm a.view).map _).prod_eq, map_getD_range _ _ rfl]
    rw [hprod] at hlt
    simp only [kCopy, hp, if_true]
    refine ⟨by positivity, ?_⟩
    have : (cflat ((kAxes a.view).map (a.view.shape.getD · 0)) ((kAxes a.view).map (idx.getD · 0)) : Int)
        + 1 ≤ (a.view.shape.prod : Int) := by exact_mod_cast hlt
    exact mul_le_mul_of_nonneg_right this (by positivity)
  · simp only [kCopy, Arr.read, if_true]
    rw [unK_pos hidx]

/-- The array an argument stands for. -/
def Arg.arr : Arg → Arr
  | .array a => a
  | .seq a => a

/-- `as_float32` returns the converted elements in an array of the same shape. -/
theorem asFloat32_spec (conv : DType → DType → K → K) (hconv : ∀ v, conv .float32 .float32 v = v)
    (h : Heap K) (x : Arg) (hx : x.arr.Valid h) :
    (asFloat32 pun conv h x).1.Valid (asFloat32 pun conv h x).2 ∧
    (asFloat32 pun conv h x).1.dtype = .float32 ∧
    (asFloat32 pun conv h x).1.view.shape = x.arr.view.shape ∧
    ∀ idx, InShape x.arr.view.shape idx →
      (asFloat32 pun conv h x).1.read pun (asFloat32 pun conv h x).2 idx
        = conv x.arr.dtype .float32 (x.arr.read pun h idx) := by
  cases x with
  | array a =>
    simp only [asFloat32, Arg.arr] at hx ⊢
    by_cases hd : a.dtype = .float32
    · rw [if_pos hd]
      exact ⟨hx, hd, rfl, fun idx _ => by rw [hd, hconv]⟩
    · rw [if_neg hd]
      obtain ⟨h1, h2⟩ := kCopy_spec pun h a .float32 (conv a.dtype .float32)
      exact ⟨h1, rfl, rfl, h2⟩
  | seq a =>
    simp only [asFloat32, Arg.arr]
    obtain ⟨h1, _, _⟩ := freshCopy_seen pun h a .float32 (conv a.dtype .float32) .none
    exact ⟨h1, rfl, rfl, (freshCopy_spec pun h a .float32 (conv a.dtype .float32) .none).2.2.1⟩

/-- `np.require` makes any array readable by C. -/
theorem requireAC_seen (h : Heap K) (a : Arr) (ha : a.Valid h) :
    (requireAC pun h a).1.Valid (requireAC pun h a).2 ∧
    (requireAC pun h a).1.view.cContiguous = true ∧
    (requireAC pun h a).1.dtype = a.dtype ∧
    SeenBy pun (requireAC pun h a).2 (requireAC pun h a).1 (fun idx => a.read pun h idx)
      a.view.shape := by
  unfold requireAC
  by_cases hc : a.view.cContiguous = true
  · rw [if_pos hc]
    exact ⟨ha, hc, rfl, contiguous_seen pun h a ha hc⟩
  · rw [if_neg hc]
    obtain ⟨h1, h2, h3⟩ := freshCopy_seen pun h a a.dtype id .none
    exact ⟨h1, h2, rfl, h3⟩

theorem swapaxes01_pos (a : Arr) (s0 s1 : Int) (ss : List Int) (ht : a.view.strides = s0 :: s1 :: ss) (i j : Nat)
    (is : List Nat) : (swapaxes01 a).view.pos (j :: i :: is) = a.view.pos (i :: j :: is) := by
  simp only [swapaxes01, View.pos, ht, List.zipWith_cons_cons, List.sum_cons]
  ring

theorem swapaxes01_shape (a : Arr) (n0 n1 : Nat) (ns : List Nat)
    (hs : a.view.shape = n0 :: n1 :: ns) : (swapaxes01 a).view.shape = n1 :: n0 :: ns := by
  simp [swapaxes01, hs]

theorem inShape_swap {n0 n1 : Nat} {ns : List Nat} {i j : Nat} {is : List Nat} :
    InShape (n1 :: n0 :: ns) (j :: i :: is) ↔ InShape (n0 :: n1 :: ns) (i :: j :: is) := by
  simp only [InShape, List.forall₂_cons]
  tauto

theorem swapaxes01_valid (h : Heap K) (a : Arr) (ha : a.Valid h) (n0 n1 : Nat) (ns : List Nat)
    (s0 s1 : Int) (ss : List Int) (hs : a.view.shape = n0 :: n1 :: ns)
    (ht : a.view.strides = s0 :: s1 :: ss) : (swapaxes01 a).Valid h := by
  refine ⟨ha.alloc, by
    have := ha.rank
    simp only [ht, hs, List.length_cons] at this
    simp [swapaxes01, ht, hs]; omega, fun idx hidx => ?_⟩
  rw [swapaxes01_shape a n0 n1 ns hs] at hidx
  match idx, hidx with
  | j :: i :: is, hidx =>
    rw [swapaxes01_pos a s0 s1 ss ht]
    exact ha.mem _ (by rw [hs]; exact inShape_swap.mp hidx)
  | [], hidx => cases hidx
  | [_], hidx => cases hidx with | cons _ h => cases h

/-- **C98.** The data of `recon` is seen by C element by element whatever the type and the memory
layout of the array passed: in sinogram order as it is … -/
theorem tomo_seen_sino (conv : DType → DType → K → K) (hconv : ∀ v, conv .float32 .float32 v = v)
    (h : Heap K) (x : Arg) (hx : x.arr.Valid h) :
    (initTomo pun conv h x true).1.Valid (initTomo pun conv h x true).2 ∧
    (initTomo pun conv h x true).1.view.cContiguous = true ∧
    SeenBy pun (initTomo pun conv h x true).2 (initTomo pun conv h x true).1
      (fun idx => conv x.arr.dtype .float32 (x.arr.read pun h idx)) x.arr.view.shape := by
  obtain ⟨h1, _, h3, h4⟩ := asFloat32_spec pun conv hconv h x hx
  obtain ⟨r1, r2, _, r4⟩ := requireAC_seen pun _ _ h1
  refine ⟨r1, r2, r4.1.trans h3, fun idx hidx => ?_⟩
  exact (r4.2 idx (by rw [h3]; exact hidx)).trans (congrArg some (h4 idx hidx))

/-- … and in projection order with the first two axes exchanged. -/
theorem tomo_seen_proj (conv : DType → DType → K → K) (hconv : ∀ v, conv .float32 .float32 v = v)
    (h : Heap K) (x : Arg) (hx : x.arr.Valid h) (dt dy dx : Nat)
    (hs : x.arr.view.shape = [dt, dy, dx]) :
    (initTomo pun conv h x false).1.Valid (initTomo pun conv h x false).2 ∧
    (initTomo pun conv h x false).1.view.cContiguous = true ∧
    (initTomo pun conv h x false).1.view.shape = [dy, dt, dx] ∧
    ∀ s p d, s < dy → p < dt → d < dx →
      (initTomo pun conv h x false).1.cElem pun (initTomo pun conv h x false).2 [s, p, d]
        = some (conv x.arr.dtype .float32 (x.arr.read pun h [p, s, d])) := by
  obtain ⟨h1, _, h3, h4⟩ := asFloat32_spec pun conv hconv h x hx
  set a := (asFloat32 pun conv h x).1
  set h' := (asFloat32 pun conv h x).2
  rw [hs] at h3
  have hst : ∃ s0 s1 ss, a.view.strides = s0 :: s1 :: ss := by
    have := h1.rank
    rw [h3] at this
    match hq : a.view.strides, this with
    | [s0, s1, s2], _ => exact ⟨s0, s1, [s2], rfl⟩
  obtain ⟨s0, s1, ss, hst⟩ := hst
  have hsv := swapaxes01_valid h' a h1 dt dy [dx] s0 s1 ss h3 hst
  have hss := swapaxes01_shape a dt dy [dx] h3
  obtain ⟨r1, r2, _, r4⟩ := requireAC_seen pun h' (swapaxes01 a) hsv
  refine ⟨r1, r2, r4.1.trans hss, fun s p d hs' hp hd => ?_⟩
  have hin : InShape [dy, dt, dx] [s, p, d] := by simp [InShape, hs', hp, hd]
  have hin' : InShape [dt, dy, dx] [p, s, d] := inShape_swap.mp hin
  refine (r4.2 [s, p, d] (by rw [hss]; exact hin)).trans (congrArg some ?_)
  rw [← h4 [p, s, d] (by rw [hs]; exact hin')]
  show (swapaxes01 a).read pun h' [s, p, d] = a.read pun h' [p, s, d]
  simp only [Arr.read]
  rw [swapaxes01_pos a s0 s1 ss hst]
  rfl

/-- The blocks `tomo[lo:hi]`, `recon[lo:hi]`, `center[lo:hi]` which the workers of `recon` are given
of a C-contiguous array are seen right, too: index `i` of the block is index `lo + i` of the
array. -/
theorem block_seen (h : Heap K) (a : Arr) (hv : a.Valid h) (hc : a.view.cContiguous = true)
    (n : Nat) (ns : List Nat) (hs : a.view.shape = n :: ns) (lo hi : Nat) (hlh : lo ≤ hi)
    (hn : hi ≤ n) (i : Nat) (is : List Nat) (hi' : i < hi - lo) (his : InShape ns is) :
    (sliceFirst a lo hi).cElem pun h (i :: is) = some (a.read pun h ((lo + i) :: is)) := by
  have hin : InShape a.view.shape ((lo + i) :: is) := by
    rw [hs]; exact List.Forall₂.cons (by omega) his
  have hseen := (contiguous_seen pun h a hv hc).2 _ hin
  rw [← hseen]
  have hp := inShape_prod_pos hin
  have hr : rowMajor a.view.shape a.view.strides = true := by
    simp only [View.cContiguous, Bool.or_eq_true, beq_iff_eq] at hc
    rcases hc with h0 | h0
    · omega
    · exact h0
  have hlo : (lo : Int) * a.view.strides.headD 0 = ((lo * ns.prod : Nat) : Int) := by
    rw [hs] at hr
    match hq : a.view.strides, hr with
    | t :: ts, hr =>
      simp only [rowMajor, Bool.and_eq_true, Bool.or_eq_true, beq_iff_eq] at hr
      rcases hr.1 with h1 | h1
      · have : lo = 0 := by omega
        subst this; simp
      · rw [List.headD_cons, h1]; push_cast; ring
  have key : (sliceFirst a lo hi).view.offset + (cflat (sliceFirst a lo hi).view.shape (i :: is) : Int)
      = a.view.offset + (cflat a.view.shape ((lo + i) :: is) : Int) := by
    simp only [sliceFirst, hs, cflat, hlo]
    push_cast
    ring
  simp only [Arr.cElem, Arr.cRead, key]
  rfl

/-- Angles and centres: a one-dimensional argument that is converted — a list, or an array of any
other type with any stride — is seen right. -/
theorem vector_seen (conv : DType → DType → K → K) (h : Heap K) (x : Arg) (n : Nat)
    (hs : x.arr.view.shape = [n]) (hx : ∀ a, x = .array a → a.dtype ≠ .float32) (p : Nat)
    (hp : p < n) :
    (asFloat32 pun conv h x).1.cElem pun (asFloat32 pun conv h x).2 [p]
      = some (conv x.arr.dtype .float32 (x.arr.read pun h [p])) := by
  cases x with
  | array a =>
    have hs' : a.view.shape = [n] := hs
    have hin : InShape a.view.shape [p] := by rw [hs']; simp [InShape, hp]
    simp only [asFloat32, Arg.arr, if_neg (hx a rfl)]
    obtain ⟨h1, h2⟩ := kCopy_spec pun h a .float32 (conv a.dtype .float32)
    have hc : (kCopy pun h a .float32 (conv a.dtype .float32)).1.view.cContiguous = true := by
      simp [kCopy, kView, View.cContiguous, hs', kAxes_one, cStrides, rowMajor]
    rw [(contiguous_seen pun _ _ h1 hc).2 [p] hin]
    exact congrArg some (h2 [p] hin)
  | seq a =>
    have hs' : a.view.shape = [n] := hs
    have hin : InShape a.view.shape [p] := by rw [hs']; simp [InShape, hp]
    exact (freshCopy_seen pun h a .float32 (conv a.dtype .float32) .none).2.2.2 [p] hin

/-- Objects passed to `project`: C-contiguous arrays of any type, and lists, are seen right. -/
theorem object_seen (conv : DType → DType → K → K) (hconv : ∀ v, conv .float32 .float32 v = v)
    (h : Heap K) (x : Arg) (hx : x.arr.Valid h)
    (hc : ∀ a, x = .array a → a.view.cContiguous = true) :
    SeenBy pun (asFloat32 pun conv h x).2 (asFloat32 pun conv h x).1
      (fun idx => conv x.arr.dtype .float32 (x.arr.read pun h idx)) x.arr.view.shape := by
  obtain ⟨h1, _, h3, h4⟩ := asFloat32_spec pun conv hconv h x hx
  have hcc : (asFloat32 pun conv h x).1.view.cContiguous = true := by
    cases x with
    | array a =>
      simp only [asFloat32]
      by_cases hd : a.dtype = .float32
      · rw [if_pos hd]; exact hc a rfl
      · rw [if_neg hd]; exact kView_contiguous _ (hc a rfl)
    | seq a => exact cView_contiguous _
  have hseen := contiguous_seen pun _ _ h1 hcc
  refine ⟨h3, fun idx hidx => ?_⟩
  exact (hseen.2 idx (by rw [h3]; exact hidx)).trans (congrArg some (h4 idx hidx))

/-- An initial guess is seen right whatever its type and layout … -/
theorem init_recon_seen (conv : DType → DType → K → K) (hconv : ∀ v, conv .float32 .float32 v = v)
    (h : Heap K) (a : Arr) (ha : a.Valid h) :
    SeenBy pun (initRecon pun conv h a).2 (initRecon pun conv h a).1
      (fun idx => conv a.dtype .float32 (a.read pun h idx)) a.view.shape := by
  unfold initRecon
  by_cases hd : a.dtype = .float32
  · rw [if_pos hd]
    obtain ⟨_, _, _, r⟩ := requireAC_seen pun h a ha
    refine ⟨r.1, fun idx hidx => ?_⟩
    rw [r.2 idx hidx, hd]
    exact congrArg some (hconv _).symm
  · rw [if_neg hd]
    exact (freshCopy_seen pun h a .float32 (conv a.dtype .float32) .none).2.2

/-- … but the reconstruction is written over it if it is a C-contiguous float32 array, -/
theorem init_recon_overwritten (conv : DType → DType → K → K) (h : Heap K) (a : Arr)
    (hd : a.dtype = .float32) (hc : a.view.cContiguous = true) (hb : (h.buf a.buf).dtype = .float32)
    (idx : List Nat) (hidx : InShape a.view.shape idx) (v : K) :
    a.read pun ((initRecon pun conv h a).1.cWrite (initRecon pun conv h a).2 idx v) idx = v := by
  have hr : initRecon pun conv h a = (a, h) := by
    unfold initRecon requireAC
    rw [if_pos hd, if_pos hc]
  rw [hr]
  simp only [Arr.cWrite, Arr.read, if_true, hb, hd, contiguous_pos hc hidx]

/-- … and left alone in every other case. -/
theorem init_recon_kept (conv : DType → DType → K → K) (h : Heap K) (a : Arr) (ha : a.Valid h)
    (hne : a.dtype ≠ .float32 ∨ a.view.cContiguous = false) (idx idx' : List Nat) (v : K) :
    a.read pun ((initRecon pun conv h a).1.cWrite (initRecon pun conv h a).2 idx v) idx'
      = a.read pun h idx' := by
  have hbuf : a.buf ≠ h.next := by have := ha.alloc; omega
  have key : ∀ d c, a.read pun ((freshCopy pun h a d c .none).1.cWrite
      (freshCopy pun h a d c .none).2 idx v) idx' = a.read pun h idx' := by
    intro d c
    simp only [Arr.cWrite, freshCopy, Arr.read, if_neg hbuf]
  unfold initRecon requireAC
  by_cases hd : a.dtype = .float32
  · rw [if_pos hd]
    rcases hne with h1 | h1
    · exact absurd hd h1
    · rw [h1, if_neg (by simp)]
      exact key _ _
  · rw [if_neg hd]
    exact key _ _

/-- REFUTED: the C code sees the angles that were passed.  Of a float32 array taken with a step
(`theta[::s]`, `s ≥ 2`), which passes the check for one angle per projection, C sees the first
elements of the array it was taken from instead. -/
theorem theta_step_misread (conv : DType → DType → K → K) (h : Heap K) (b n s : Nat) (base : Base)
    (hs : 2 ≤ s) (hb : (h.buf b).dtype = .float32) (hl : (h.buf b).len = n) (p : Nat)
    (hp : p < (n + s - 1) / s) :
    let theta := stepSlice ⟨b, .float32, cView [n], base⟩ s
    theta.view.shape = [(n + s - 1) / s] ∧
    (asFloat32 pun conv h (.array theta)).1.cElem pun (asFloat32 pun conv h (.array theta)).2 [p]
      = some ((h.buf b).get p) ∧
    theta.read pun h [p] = (h.buf b).get (s * p : Nat) := by
  intro theta
  have hpn : p < n := by
    have h1 := Nat.mul_le_of_le_div s (p + 1) (n + s - 1) hp
    have h2 := Nat.mul_le_mul_left p hs
    rw [Nat.add_mul] at h1
    omega
  refine ⟨by simp [theta, stepSlice, cView], ?_, ?_⟩
  · have ht : (asFloat32 pun conv h (.array theta)) = (theta, h) := by simp [asFloat32, theta, stepSlice, cView]
    rw [ht]
    have h0 : (0 : Int) < s := by omega
    simp only [theta, stepSlice, cView, Arr.cElem, Arr.cRead, cflat, hb, hl, h0, if_true, DType.itemsize,
      List.prod_nil]
    rw [if_pos (by constructor <;> push_cast <;> omega)]
    simp
  · have h0 : (0 : Int) < s := by omega
    simp only [theta, stepSlice, cView, Arr.read, hb, View.pos, cStrides, h0, if_true]
    simp

/-- REFUTED: the C code stays inside the arrays that were passed.  Of a reversed float32 array
(`theta[::-1]`) C reads beyond the end of the buffer from the second angle on. -/
theorem theta_reversed_outside (conv : DType → DType → K → K) (h : Heap K) (b n : Nat) (base : Base)
    (hb : (h.buf b).dtype = .float32) (hl : (h.buf b).len = n) (p : Nat) (hp : p < n) (hp1 : 1 ≤ p) :
    let theta := stepSlice ⟨b, .float32, cView [n], base⟩ (-1)
    theta.view.shape = [n] ∧
    theta.read pun h [p] = (h.buf b).get (n - 1 - p : Nat) ∧
    (asFloat32 pun conv h (.array theta)).1.cElem pun (asFloat32 pun conv h (.array theta)).2 [p]
      = none := by
  intro theta
  refine ⟨by simp [theta, stepSlice, cView], ?_, ?_⟩
  · simp only [theta, stepSlice, cView, Arr.read, hb, View.pos, cStrides]
    simp only [if_true]
    congr 1
    simp
    omega
  · have ht : (asFloat32 pun conv h (.array theta)) = (theta, h) := by
      simp [asFloat32, theta, stepSlice, cView]
    rw [ht]
    simp only [theta, stepSlice, cView, Arr.cElem, Arr.cRead, cflat, hb, hl, DType.itemsize]
    rw [if_neg]
    simp [cStrides]
    omega

/-- REFUTED: the projection of an object does not depend on how it is laid out in memory.  Of a
transposed array — float32, which is passed on, or of another type, whose copy keeps the order — C
sees the elements in the order of the array that was transposed. -/
theorem object_transposed (conv : DType → DType → K → K) (hconv : ∀ v, conv .float32 .float32 v = v)
    (h : Heap K) (b n0 n1 n2 : Nat) (d : DType) (base : Base) (hb : (h.buf b).dtype = d)
    (hl : (h.buf b).len = n0 * n1 * n2) (h0 : 2 ≤ n0) (h1 : 2 ≤ n1) (h2 : 2 ≤ n2)
    (i j k : Nat) (hi : i < n2) (hj : j < n1) (hk : k < n0) :
    let obj := transpose ⟨b, d, cView [n0, n1, n2], base⟩
    obj.view.shape = [n2, n1, n0] ∧
    (asFloat32 pun conv h (.array obj)).1.cElem pun (asFloat32 pun conv h (.array obj)).2 [i, j, k]
      = some (conv d .float32 ((h.buf b).get (i * (n1 * n0) + (j * n0 + k) : Nat))) ∧
    obj.read pun h [i, j, k] = (h.buf b).get (k * (n1 * n2) + (j * n2 + i) : Nat) := by
  intro obj
  have hshape : obj.view.shape = [n2, n1, n0] := by simp [obj, transpose, cView]
  have hstr : obj.view.strides = [1, (n2 : Int), (n1 * n2 : Nat)] := by
    simp [obj, transpose, cView, cStrides]
  have hoff : obj.view.offset = 0 := by simp [obj, transpose, cView]
  have hbuf : obj.buf = b := rfl
  have hdt : obj.dtype = d := rfl
  have hread : ∀ i j k : Nat, obj.read pun h [i, j, k]
      = (h.buf b).get (k * (n1 * n2) + (j * n2 + i) : Nat) := by
    intro i j k
    simp only [Arr.read, hbuf, hdt, hb, if_true, View.pos, hstr, hoff]
    congr 1
    simp
    ring
  have hlt : i * (n1 * n0) + (j * n0 + k) < n0 * n1 * n2 := by
    have h3 : j * n0 + k < n1 * n0 := by
      have := Nat.mul_le_mul_right n0 (show j + 1 ≤ n1 from hj)
      rw [Nat.add_mul] at this
      omega
    have h4 := Nat.mul_le_mul_right (n1 * n0) (show i + 1 ≤ n2 from hi)
    rw [Nat.add_mul] at h4
    have h5 : n2 * (n1 * n0) = n0 * n1 * n2 := by ring
    omega
  have hflat : cflat [n2, n1, n0] [i, j, k] = i * (n1 * n0) + (j * n0 + k) := by simp [cflat]
  refine ⟨hshape, ?_, hread i j k⟩
  by_cases hd : d = .float32
  · have ht : asFloat32 pun conv h (.array obj) = (obj, h) := by simp [asFloat32, hdt, hd]
    rw [ht]
    simp only [Arr.cElem, Arr.cRead, hshape, hflat, hoff, hbuf, hdt, hb, hl, zero_add, if_true]
    rw [if_pos, hd, hconv]
    refine ⟨by positivity, ?_⟩
    exact mul_le_mul_of_nonneg_right (by exact_mod_cast hlt) (by positivity)
  · have ht : asFloat32 pun conv h (.array obj) = kCopy pun h obj .float32 (conv d .float32) := by
      simp [asFloat32, hdt, hd]
    rw [ht]
    have hn1 : n2 < n1 * n2 := by nlinarith
    have hnc : obj.view.cContiguous = false := by
      have : n2 ≠ 1 := by omega
      have h3 : (1 : Int) ≠ ((n1 * n0 : Nat) : Int) := by
        have : 1 < n1 * n0 := by nlinarith
        omega
      have h4 : n0 ≠ 0 ∧ n1 ≠ 0 ∧ n2 ≠ 0 := by omega
      have h5 : ¬ ((1 : Int) = (n1 : Int) * n0) := by exact_mod_cast h3
      simp [View.cContiguous, hshape, hstr, rowMajor, this, h4, h5]
    have hax : kAxes obj.view = [2, 1, 0] := by
      rw [kAxes, hnc, if_neg (by simp)]
      have e1 : ¬ (n1 * n2 ≤ n2) := by omega
      have e2 : ¬ (n1 * n2 ≤ 1) := by omega
      have e3 : ¬ (n2 ≤ 1) := by omega
      have e1' : ¬ ((n1 : Int).natAbs * (n2 : Int).natAbs ≤ n2) := by simpa using e1
      simp only [hshape, hstr, List.length_cons, List.length_nil, List.range_succ, List.range_zero,
        List.nil_append, List.insertionSort, List.orderedInsert,
        List.getD_cons_zero, List.getD_cons_succ, Int.natAbs_natCast, Int.natAbs_one,
        e1, e2, e3, if_false, List.cons_append, List.foldr_cons, List.foldr_nil]
    have hun : unK obj.view (i * (n1 * n0) + (j * n0 + k))
        = let u := unflat [n0, n1, n2] (i * (n1 * n0) + (j * n0 + k))
          [u.getD 2 0, u.getD 1 0, u.getD 0 0] := by
      simp only [unK, hax, hshape]
      rfl
    have hsh : (kView obj.view).shape = [n2, n1, n0] := hshape
    simp only [kCopy, Arr.cElem, Arr.cRead, hsh, hflat, if_true]
    rw [if_pos]
    · have hz : ((kView obj.view).offset + ((i * (n1 * n0) + (j * n0 + k) : Nat) : Int)).toNat
          = i * (n1 * n0) + (j * n0 + k) := by simp [kView]; rfl
      rw [hz, hun]
      simp only []
      rw [hread]
      congr 3
      simp only [unflat, List.getD_cons_zero, List.getD_cons_succ, List.prod_cons, List.prod_nil,
        mul_one, Nat.div_one]
      generalize i * (n1 * n0) + (j * n0 + k) = m
      have e1 := Nat.div_add_mod m (n1 * n2)
      have e2 := Nat.div_add_mod (m % (n1 * n2)) n2
      have e3 : m / (n1 * n2) * (n1 * n2) = n1 * n2 * (m / (n1 * n2)) := Nat.mul_comm _ _
      have e4 : m % (n1 * n2) / n2 * n2 = n2 * (m % (n1 * n2) / n2) := Nat.mul_comm _ _
      omega
    · refine ⟨by simp [kView]; positivity, ?_⟩
      have hprod : obj.view.shape.prod = n0 * n1 * n2 := by rw [hshape]; simp; ring
      rw [hprod]
      refine mul_le_mul_of_nonneg_right ?_ (by positivity)
      simp only [kView, zero_add]
      exact_mod_cast hlt

end Ptr

/-- Two buffers: 0 a float32 array of six elements 10…15, 1 a float64 one of eight, 20…27. -/
def ptrHeap : Heap Int :=
  ⟨2, fun b => if b = 0 then ⟨6, .float32, fun n => 10 + n⟩ else ⟨8, .float64, fun n => 20 + n⟩⟩

/-- No reinterpretation occurs in the examples. -/
def ptrPun : DType → DType → (Int → Int) → Int → Int := fun _ _ f => f

example : Arr.Valid ptrHeap (transpose ⟨1, .float64, cView [2, 2, 2], .none⟩) ∧
    Arr.Valid ptrHeap (stepSlice ⟨0, .float32, cView [6], .none⟩ 2) := by
  refine ⟨⟨by decide, by decide, fun idx h => ?_⟩, ⟨by decide, by decide, fun idx h => ?_⟩⟩
  · match idx, h with
    | [i, j, k], h =>
      have h' : i < 2 ∧ j < 2 ∧ k < 2 := by
        simpa [InShape, transpose, cView] using h
      simp [transpose, View.pos, cView, cStrides, ptrHeap, DType.itemsize]
      omega
  · match idx, h with
    | [i], h =>
      have h' : i < 3 := by
        simpa [InShape, stepSlice, cView] using h
      simp [stepSlice, View.pos, cView, cStrides, ptrHeap, DType.itemsize]
      omega

-- a transposed float64 stack is seen right by `recon` in either order, but not by `project`
example :
    let a := transpose ⟨1, .float64, cView [2, 2, 2], .none⟩
    let c : DType → DType → Int → Int := fun _ _ v => v
    let s := initTomo ptrPun c ptrHeap (.array a) true
    let t := initTomo ptrPun c ptrHeap (.array a) false
    let o := asFloat32 ptrPun c ptrHeap (.array a)
    a.read ptrPun ptrHeap [1, 0, 0] = 21 ∧ s.1.cElem ptrPun s.2 [1, 0, 0] = some 21 ∧
      t.1.cElem ptrPun t.2 [0, 1, 0] = some 21 ∧ o.1.read ptrPun o.2 [1, 0, 0] = 21 ∧
      o.1.cElem ptrPun o.2 [1, 0, 0] = some 24 := by decide +kernel

-- every other angle of a float32 array, and the same of a float64 one
example :
    let a := stepSlice ⟨0, .float32, cView [6], .none⟩ 2
    let b := stepSlice ⟨1, .float64, cView [8], .none⟩ (-2)
    let c : DType → DType → Int → Int := fun _ _ v => v
    let r := asFloat32 ptrPun c ptrHeap (.array a)
    let t := asFloat32 ptrPun c ptrHeap (.array b)
    (List.range 3).map (fun p => a.read ptrPun ptrHeap [p]) = [10, 12, 14] ∧
      (List.range 3).map (fun p => r.1.cElem ptrPun r.2 [p]) = [some 10, some 11, some 12] ∧
      (List.range 4).map (fun p => t.1.cElem ptrPun t.2 [p]) = [some 27, some 25, some 23, some 21] := by
  decide +kernel

-- a reversed one
example :
    let a := stepSlice ⟨0, .float32, cView [6], .none⟩ (-1)
    let r := asFloat32 ptrPun (fun _ _ v => v) ptrHeap (.array a)
    (List.range 6).map (fun p => r.1.cElem ptrPun r.2 [p])
      = [some 15, none, none, none, none, none] := by
  decide +kernel

end Tomopy.Dtype
