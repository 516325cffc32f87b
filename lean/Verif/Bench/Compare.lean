import Verif.Bench.Props

/-! C193: the class `image_comparison` of source/tomopy/misc/benchmark.py. -/
set_option linter.unusedSectionVars false

namespace Tomopy.Bench

variable {K : Type} [Field K] [LinearOrder K]

/-! ### Model -/

/-- A stack passed to `assign` (misc/benchmark.py:353), flattened. -/
structure Arr (K : Type) where
  n : Nat
  rows : Nat
  cols : Nat
  data : List K

/-- The attributes of `image_comparison` (misc/benchmark.py:338-351); `none` is memory of `np.ndarray`
that has not been written. -/
structure Cmp (K : Type) where
  nslice : Nat
  nrows : Nat
  ncols : Nat
  ncompare : Nat
  tags : List String
  sol : Nat → Nat → Nat → K
  array : Nat → Nat → Nat → Option K
  delta : Nat → Nat → Nat → Option K

/-- Length `s` can be assigned to a slice of length `t` (broadcasting, misc/benchmark.py:359, 371). -/
def fits (t s : Nat) : Prop := s = t ∨ s = 1

instance (t s : Nat) : Decidable (fits t s) := by unfold fits; infer_instance

/-- Index into an axis of length `len` that is broadcast (misc/benchmark.py:359, 370). -/
def bi (len i : Nat) : Nat := if len = 1 then 0 else i

/-- Element of flattened data of the shape of `a`, broadcast (misc/benchmark.py:359). -/
def elem (a : Arr K) (d : List K) (i x y : Nat) : K :=
  d.getD ((bi a.n i * a.rows + bi a.rows x) * a.cols + bi a.cols y) 0

/-- misc/benchmark.py:338-351 `__init__`.  The solution has the given size (a solution of another size
that numpy would broadcast is not modelled). -/
def cmpInit (f : Bool) (ncompare nslice nrows ncols : Nat) (solution : Option (List K)) : Cmp K :=
  let sol : Nat → Nat → Nat → K := match solution with
    | none => fun _ _ _ => 0                                           -- 343
    | some d => elem ⟨nslice, nrows, ncols, d⟩ (normalize f d)         -- 345
  { nslice, nrows, ncols, ncompare
    tags := ["soln"]                                                   -- 341
    sol
    array := fun i x y => if y < ncols then some (sol i x y) else none -- 347-348
    delta := fun i x y => if y < ncols then some (sol i x y) else none }

/-- misc/benchmark.py:353-371 `assign`: the object afterwards and the exception, if any. -/
def assign (f : Bool) (s : Cmp K) (label : String) (block : Nat) (a : Arr K) : Cmp K × Option PyErr :=
  let s := { s with tags := s.tags ++ [label] }                        -- 354
  let d := normalize f a.data                                          -- 355
  let b := s.ncols * block                                             -- 356
  let w := sliceLen (s.ncols * (s.ncompare + 1)) b (s.ncols * (block + 1))
  if ¬ (fits s.nslice a.n ∧ fits s.nrows a.rows ∧ fits w a.cols) then (s, some .value)
  else
    let pic := fun i x y => if b ≤ y ∧ y < b + w then some (elem a d i x (y - b)) else s.array i x y
    let s := { s with array := pic }
    if ¬ (a.cols = s.ncols ∨ a.cols = 1 ∨ s.ncols = 1) then (s, some .value)  -- 370
    else if ¬ fits w (if a.cols = 1 then s.ncols else a.cols) then (s, some .value)
    else
      let dif := fun i x y => if b ≤ y ∧ y < b + w then
        some (elem a d i x (y - b) - s.sol i x (bi s.ncols (y - b))) else s.delta i x y
      ({ s with delta := dif }, none)                                  -- 371

/-- misc/benchmark.py:353-371, several calls one after the other; the exceptions raised. -/
def assignAll (f : Bool) (s : Cmp K) : List (String × Nat × Arr K) → Cmp K × List PyErr
  | [] => (s, [])
  | (l, b, a) :: rest =>
    let r := assign f s l b a
    let q := assignAll f r.1 rest
    (q.1, r.2.toList ++ q.2)

/-! ### Specification -/

/-- A stack of the size of the comparison. -/
def Sized (s : Cmp K) (a : Arr K) : Prop := a.n = s.nslice ∧ a.rows = s.nrows ∧ a.cols = s.ncols

/-- Pixel `(x, y)` of image `i` of the normalised stack. -/
def shown (f : Bool) (a : Arr K) (i x y : Nat) : K :=
  (normalize f a.data).getD ((i * a.rows + x) * a.cols + y) 0

/-- The last stack assigned to block `b`. -/
def lastOf (b : Nat) : List (String × Nat × Arr K) → Option (Arr K)
  | [] => none
  | (_, b', a) :: rest => (lastOf b rest).or (if b' = b then some a else none)

/-- Block `b` of the picture shows `p`. -/
def Shows (s : Cmp K) (pic : Nat → Nat → Nat → Option K) (b : Nat) (p : Nat → Nat → Nat → Option K) :
    Prop :=
  ∀ i < s.nslice, ∀ x < s.nrows, ∀ y < s.ncols, pic i x (s.ncols * b + y) = p i x y

/-! ### Theorems -/

theorem bi_lt {n i : Nat} (h : i < n) : bi n i = i := by
  unfold bi
  split <;> omega

theorem elem_shown (f : Bool) (a : Arr K) (i x y : Nat) (hi : i < a.n) (hx : x < a.rows)
    (hy : y < a.cols) : elem a (normalize f a.data) i x y = shown f a i x y := by
  unfold elem shown
  rw [bi_lt hi, bi_lt hx, bi_lt hy]

theorem slice_in (c n b : Nat) (hb : b ≤ n) :
    sliceLen (c * (n + 1)) (c * b) (c * (b + 1)) = c := by
  unfold sliceLen
  have h1 : c * (b + 1) ≤ c * (n + 1) := Nat.mul_le_mul_left _ (by omega)
  have h2 : c * b ≤ c * (b + 1) := Nat.mul_le_mul_left _ (by omega)
  rw [min_eq_left h1, min_eq_left (h2.trans h1), Nat.mul_add, Nat.mul_one]
  omega

theorem slice_out (c n b : Nat) (hb : n < b) :
    sliceLen (c * (n + 1)) (c * b) (c * (b + 1)) = 0 := by
  unfold sliceLen
  have h1 : c * (n + 1) ≤ c * b := Nat.mul_le_mul_left _ (by omega)
  have h2 : c * b ≤ c * (b + 1) := Nat.mul_le_mul_left _ (by omega)
  rw [min_eq_right h1, min_eq_right (h1.trans h2)]
  omega

/-- The columns of different blocks are different. -/
theorem block_disjoint {c b b' y y' : Nat} (hy : y < c) (hy' : y' < c) (h : b ≠ b') :
    c * b + y ≠ c * b' + y' := by
  intro e
  have h1 : (c * b + y) / c = (c * b' + y') / c := by rw [e]
  rw [Nat.mul_add_div (by omega), Nat.mul_add_div (by omega), Nat.div_eq_of_lt hy,
    Nat.div_eq_of_lt hy'] at h1
  omega

/-- **C193** A stack of the right size assigned to a block of the comparison: no exception, that block
shows the normalised stack and its difference from the solution, all other blocks are unchanged. -/
theorem assign_spec (f : Bool) (s : Cmp K) (label : String) (block : Nat) (a : Arr K)
    (ha : Sized s a) (hb : block ≤ s.ncompare) :
    (assign f s label block a).2 = none ∧
    (let t := (assign f s label block a).1
    t.nslice = s.nslice ∧ t.nrows = s.nrows ∧ t.ncols = s.ncols ∧ t.ncompare = s.ncompare ∧
    t.sol = s.sol ∧ t.tags = s.tags ++ [label] ∧
    Shows t t.array block (fun i x y => some (shown f a i x y)) ∧
    Shows t t.delta block (fun i x y => some (shown f a i x y - s.sol i x y)) ∧
    ∀ b, b ≠ block → Shows t t.array b (fun i x y => s.array i x (s.ncols * b + y)) ∧
      Shows t t.delta b (fun i x y => s.delta i x (s.ncols * b + y))) := by
  obtain ⟨h1, h2, h3⟩ := ha
  have hw := slice_in s.ncols s.ncompare block hb
  have key : assign f s label block a = ({ s with
      tags := s.tags ++ [label]
      array := fun i x y => if s.ncols * block ≤ y ∧ y < s.ncols * block + s.ncols then
        some (elem a (normalize f a.data) i x (y - s.ncols * block)) else s.array i x y
      delta := fun i x y => if s.ncols * block ≤ y ∧ y < s.ncols * block + s.ncols then
        some (elem a (normalize f a.data) i x (y - s.ncols * block)
          - s.sol i x (bi s.ncols (y - s.ncols * block))) else s.delta i x y }, none) := by
    unfold assign
    dsimp only
    rw [hw, if_neg (not_not.2 ⟨Or.inl h1, Or.inl h2, Or.inl h3⟩), if_neg (not_not.2 (Or.inl h3)),
      if_neg]
    rw [not_not]
    left
    split <;> first | rfl | exact h3
  rw [key]
  refine ⟨rfl, rfl, rfl, rfl, rfl, rfl, rfl, ?_, ?_, ?_⟩
  · intro i hi x hx y hy
    dsimp only at hi hx hy ⊢
    rw [if_pos ⟨by omega, by omega⟩, Nat.add_sub_cancel_left,
      elem_shown f a i x y (by omega) (by omega) (by omega)]
  · intro i hi x hx y hy
    dsimp only at hi hx hy ⊢
    rw [if_pos ⟨by omega, by omega⟩, Nat.add_sub_cancel_left,
      elem_shown f a i x y (by omega) (by omega) (by omega), bi_lt hy]
  · intro b hne
    have out : ∀ y < s.ncols, ¬ (s.ncols * block ≤ s.ncols * b + y ∧
        s.ncols * b + y < s.ncols * block + s.ncols) := by
      rintro y hy ⟨p, q⟩
      exact block_disjoint hy (y' := s.ncols * b + y - s.ncols * block) (by omega) hne (by omega)
    constructor
    · intro i hi x hx y hy
      dsimp only at hi hx hy ⊢
      rw [if_neg (out y hy)]
    · intro i hi x hx y hy
      dsimp only at hi hx hy ⊢
      rw [if_neg (out y hy)]

/-- **C193** Any sequence of assignments of stacks of the right size to the blocks `0 … ncompare`: no
exception; every block shows the last stack assigned to it and its difference from the solution, or
what it showed before; the tags are in the order of the calls. -/
theorem assignAll_spec (f : Bool) (calls : List (String × Nat × Arr K)) :
    ∀ s : Cmp K, (∀ q ∈ calls, q.2.1 ≤ s.ncompare ∧ Sized s q.2.2) →
    (assignAll f s calls).2 = [] ∧
    (let t := (assignAll f s calls).1
    t.nslice = s.nslice ∧ t.nrows = s.nrows ∧ t.ncols = s.ncols ∧ t.sol = s.sol ∧
    t.tags = s.tags ++ calls.map (fun q => q.1) ∧
    ∀ b, (∀ a, lastOf b calls = some a →
        Shows t t.array b (fun i x y => some (shown f a i x y)) ∧
        Shows t t.delta b (fun i x y => some (shown f a i x y - s.sol i x y))) ∧
      (lastOf b calls = none →
        Shows t t.array b (fun i x y => s.array i x (s.ncols * b + y)) ∧
        Shows t t.delta b (fun i x y => s.delta i x (s.ncols * b + y)))) := by
  induction calls with
  | nil =>
    intro s _
    refine ⟨rfl, rfl, rfl, rfl, rfl, by simp [assignAll], fun b => ⟨fun a h => (by cases h), fun _ => ?_⟩⟩
    exact ⟨fun _ _ _ _ _ _ => rfl, fun _ _ _ _ _ _ => rfl⟩
  | cons q calls ih =>
    obtain ⟨l, b0, a0⟩ := q
    intro s hq
    obtain ⟨hb0, hs0⟩ := hq _ List.mem_cons_self
    obtain ⟨e0, t1, t2, t3, t4, t5, t6, t7, t8, t9⟩ := assign_spec f s l b0 a0 hs0 hb0
    obtain ⟨e1, u1, u2, u3, u4, u5, u6⟩ := ih (assign f s l b0 a0).1 (fun q hq' => by
      obtain ⟨p1, p2⟩ := hq q (List.mem_cons_of_mem _ hq')
      refine ⟨by rw [t4]; exact p1, ?_⟩
      unfold Sized at p2 ⊢
      rw [t1, t2, t3]
      exact p2)
    refine ⟨?_, ?_⟩
    · show (assign f s l b0 a0).2.toList ++ _ = []
      rw [e0, e1]
      rfl
    show ((assignAll f (assign f s l b0 a0).1 calls).1).nslice = s.nslice ∧ _
    refine ⟨by rw [u1, t1], by rw [← t2]; exact u2, by rw [← t3]; exact u3, by rw [← t5]; exact u4, ?_, ?_⟩
    · rw [List.map_cons, List.append_cons, ← t6]
      exact u5
    · intro b
      obtain ⟨v1, v2⟩ := u6 b
      have hlast : lastOf b ((l, b0, a0) :: calls)
          = (lastOf b calls).or (if b0 = b then some a0 else none) := rfl
      rw [hlast]
      show (∀ a, _ → Shows (assignAll f (assign f s l b0 a0).1 calls).1 _ b _ ∧ _) ∧ _
      cases hl : lastOf b calls with
      | some a' =>
        rw [Option.some_or]
        refine ⟨?_, by rintro ⟨⟩⟩
        rintro a ⟨⟩
        have := v1 a' hl
        rw [t5] at this
        exact this
      | none =>
        rw [Option.none_or]
        have w := v2 hl
        by_cases hbb : b0 = b
        · subst hbb
          rw [if_pos rfl]
          refine ⟨?_, by rintro ⟨⟩⟩
          rintro a ⟨⟩
          refine ⟨fun i hi x hx y hy => ?_, fun i hi x hx y hy => ?_⟩
          · refine (w.1 i hi x hx y hy).trans ?_
            exact t7 i (u1 ▸ hi) x (u2 ▸ hx) y (u3 ▸ hy)
          · refine (w.2 i hi x hx y hy).trans ?_
            exact t8 i (u1 ▸ hi) x (u2 ▸ hx) y (u3 ▸ hy)
        · rw [if_neg hbb]
          refine ⟨by rintro a ⟨⟩, fun _ => ⟨fun i hi x hx y hy => ?_, fun i hi x hx y hy => ?_⟩⟩
          · refine (w.1 i hi x hx y hy).trans ?_
            exact (t9 b (Ne.symm hbb)).1 i (u1 ▸ hi) x (u2 ▸ hx) y (u3 ▸ hy)
          · refine (w.2 i hi x hx y hy).trans ?_
            exact (t9 b (Ne.symm hbb)).2 i (u1 ▸ hi) x (u2 ▸ hx) y (u3 ▸ hy)

/-- **C193** From construction on: if block 0 is never assigned it shows the solution, and a block that
was never assigned is uninitialised memory.  (`_partial`: the claim is for all calls; the cases left
out are refuted below.) -/
theorem compare_run_partial (f : Bool) (ncompare nslice nrows ncols : Nat) (d : List K)
    (calls : List (String × Nat × Arr K))
    (hq : ∀ q ∈ calls, 1 ≤ q.2.1 ∧ q.2.1 ≤ ncompare ∧
      q.2.2.n = nslice ∧ q.2.2.rows = nrows ∧ q.2.2.cols = ncols) :
    let t := (assignAll f (cmpInit f ncompare nslice nrows ncols (some d)) calls).1
    (assignAll f (cmpInit f ncompare nslice nrows ncols (some d)) calls).2 = [] ∧
    t.tags = "soln" :: calls.map (fun q => q.1) ∧
    Shows t t.array 0 (fun i x y => some (shown f ⟨nslice, nrows, ncols, d⟩ i x y)) ∧
    ∀ b, 1 ≤ b → (∀ a, lastOf b calls = some a →
        Shows t t.array b (fun i x y => some (shown f a i x y)) ∧
        Shows t t.delta b (fun i x y =>
          some (shown f a i x y - shown f ⟨nslice, nrows, ncols, d⟩ i x y))) ∧
      (lastOf b calls = none → Shows t t.array b (fun _ _ _ => none) ∧
        Shows t t.delta b (fun _ _ _ => none)) := by
  set s := cmpInit f ncompare nslice nrows ncols (some d) with hs
  obtain ⟨e, u1, u2, u3, u4, u5, u6⟩ := assignAll_spec f calls s fun q h => ⟨(hq q h).2.1, (hq q h).2.2⟩
  intro t
  have hl0 : ∀ calls : List (String × Nat × Arr K), (∀ q ∈ calls, 1 ≤ q.2.1) →
      lastOf 0 calls = none := by
    intro calls
    induction calls with
    | nil => intro _; rfl
    | cons q calls ih =>
      intro h
      have h0 := h q List.mem_cons_self
      show (lastOf 0 calls).or (if q.2.1 = 0 then some q.2.2 else none) = none
      rw [ih fun q hq => h q (List.mem_cons_of_mem _ hq), if_neg (by omega)]
      rfl
  have hsol : ∀ i < nslice, ∀ x < nrows, ∀ y < ncols,
      s.sol i x y = shown f ⟨nslice, nrows, ncols, d⟩ i x y :=
    fun i hi x hx y hy => elem_shown f ⟨nslice, nrows, ncols, d⟩ i x y hi hx hy
  refine ⟨e, u5, ?_, ?_⟩
  · intro i hi x hx y hy
    have := ((u6 0).2 (hl0 calls fun q h => (hq q h).1)).1 i hi x hx y hy
    refine this.trans ?_
    show (if s.ncols * 0 + y < s.ncols then some (s.sol i x (s.ncols * 0 + y)) else none) = _
    have hi' : i < nslice := lt_of_lt_of_eq hi u1
    have hx' : x < nrows := lt_of_lt_of_eq hx u2
    have hy' : y < ncols := lt_of_lt_of_eq hy u3
    rw [Nat.mul_zero, Nat.zero_add, if_pos (show y < s.ncols from hy'), hsol i hi' x hx' y hy']
  · intro b hb
    refine ⟨fun a ha => ?_, fun hn => ?_⟩
    · obtain ⟨p, q⟩ := (u6 b).1 a ha
      refine ⟨p, fun i hi x hx y hy => (q i hi x hx y hy).trans ?_⟩
      dsimp only
      rw [hsol i (lt_of_lt_of_eq hi u1) x (lt_of_lt_of_eq hx u2) y (lt_of_lt_of_eq hy u3)]
    · obtain ⟨p, q⟩ := (u6 b).2 hn
      have out : ∀ i x y, y < s.ncols → s.array i x (s.ncols * b + y) = none ∧
          s.delta i x (s.ncols * b + y) = none := by
        intro i x y hy
        have h1 : s.ncols * 1 ≤ s.ncols * b := Nat.mul_le_mul_left _ hb
        have h2 : ¬ s.ncols * b + y < s.ncols := by omega
        constructor
        · show (if s.ncols * b + y < s.ncols then _ else none) = none
          rw [if_neg h2]
        · show (if s.ncols * b + y < s.ncols then _ else none) = none
          rw [if_neg h2]
      exact ⟨fun i hi x hx y hy => (p i hi x hx y hy).trans (out i x y (u3 ▸ hy)).1,
        fun i hi x hx y hy => (q i hi x hx y hy).trans (out i x y (u3 ▸ hy)).2⟩

/-- **C193** (refuted part) Block 0 is not protected: assigning to it replaces the solution in the
picture. -/
theorem assign_replaces_solution (f : Bool) (s : Cmp K) (label : String) (a : Arr K) (ha : Sized s a) :
    (assign f s label 0 a).2 = none ∧ Shows (assign f s label 0 a).1 (assign f s label 0 a).1.array 0
      (fun i x y => some (shown f a i x y)) := by
  obtain ⟨h, _, _, _, _, _, _, h7, _⟩ := assign_spec f s label 0 a ha (Nat.zero_le _)
  exact ⟨h, h7⟩

/-- **C193** For a stack of the right size an exception is raised exactly if the block is outside and
the images have at least two columns. -/
theorem assign_raises_iff (f : Bool) (s : Cmp K) (label : String) (block : Nat) (a : Arr K)
    (ha : Sized s a) :
    (assign f s label block a).2 ≠ none ↔ s.ncompare < block ∧ 2 ≤ s.ncols := by
  rcases Nat.lt_or_ge s.ncompare block with hb | hb
  · have hw := slice_out s.ncols s.ncompare block hb
    obtain ⟨h1, h2, h3⟩ := ha
    unfold assign fits
    dsimp only
    rw [hw]
    by_cases h : a.cols ≤ 1
    · rw [if_neg (not_not.2 ⟨Or.inl h1, Or.inl h2, by omega⟩), if_neg (not_not.2 (Or.inl h3)), if_neg]
      · simp only [ne_eq, not_true, false_iff]
        omega
      · rw [not_not]
        split <;> omega
    · rw [if_pos (fun q => by have := q.2.2; omega)]
      simp only [ne_eq, reduceCtorEq, not_false_iff, true_iff]
      omega
  · rw [(assign_spec f s label block a ha hb).1]
    simp only [ne_eq, not_true, false_iff]
    omega

/-- **C193** (refuted part) A call that raises still adds its label, so the name no longer says what
the picture shows; the pictures are unchanged if the stack has the right size. -/
theorem assign_raises_tag (f : Bool) (s : Cmp K) (label : String) (block : Nat) (a : Arr K)
    (ha : Sized s a) (hb : s.ncompare < block) (hc : 2 ≤ s.ncols) :
    assign f s label block a = ({ s with tags := s.tags ++ [label] }, some .value) := by
  have hw := slice_out s.ncols s.ncompare block hb
  obtain ⟨h1, h2, h3⟩ := ha
  unfold assign fits
  dsimp only
  rw [hw, if_pos (fun q => by have := q.2.2; omega)]

/-- **C193** (refuted part) With images of one column an assignment to a block that does not exist is
dropped without an exception. -/
theorem assign_dropped (f : Bool) (s : Cmp K) (label : String) (block : Nat) (a : Arr K)
    (ha : Sized s a) (hb : s.ncompare < block) (hc : s.ncols = 1) :
    (assign f s label block a).2 = none ∧ (assign f s label block a).1.array = s.array ∧
    (assign f s label block a).1.delta = s.delta := by
  have hw := slice_out s.ncols s.ncompare block hb
  obtain ⟨h1, h2, h3⟩ := ha
  have k : ∀ b y : Nat, ¬ (b ≤ y ∧ y < b + 0) := by omega
  unfold assign fits
  dsimp only
  rw [hw, if_neg (not_not.2 ⟨Or.inl h1, Or.inl h2, by omega⟩), if_neg (not_not.2 (Or.inl h3)), if_neg]
  · refine ⟨rfl, ?_, ?_⟩
    · dsimp only
      funext i x y
      rw [if_neg (k _ _)]
    · dsimp only
      funext i x y
      rw [if_neg (k _ _)]
  · rw [not_not]
    split <;> omega

/-- **C193** (refuted part) A stack of images with a single column is accepted and repeated over the
block. -/
theorem assign_repeats (f : Bool) (s : Cmp K) (label : String) (block : Nat) (a : Arr K)
    (h1 : a.n = s.nslice) (h2 : a.rows = s.nrows) (h3 : a.cols = 1) (hb : block ≤ s.ncompare) :
    (assign f s label block a).2 = none ∧
    ∀ i < s.nslice, ∀ x < s.nrows, ∀ y < s.ncols,
      (assign f s label block a).1.array i x (s.ncols * block + y) = some (shown f a i x 0) := by
  have hw := slice_in s.ncols s.ncompare block hb
  unfold assign fits
  dsimp only
  rw [hw, if_neg (not_not.2 ⟨Or.inl h1, Or.inl h2, Or.inr h3⟩), if_neg (not_not.2 (Or.inr (Or.inl h3))),
    if_neg (by rw [not_not, if_pos h3]; exact Or.inl rfl)]
  refine ⟨rfl, fun i hi x hx y hy => ?_⟩
  dsimp only
  rw [if_pos ⟨by omega, by omega⟩]
  unfold elem shown
  rw [bi_lt (h1 ▸ hi), bi_lt (h2 ▸ hx), Nat.add_sub_cancel_left]
  simp [bi, h3]

/-- Two assignments to a comparison of two blocks meet the hypotheses; the second block shows the
normalised image. -/
example : (∀ q ∈ [("art", 1, (⟨1, 1, 2, [0, 3]⟩ : Arr ℚ)), ("sirt", 2, ⟨1, 1, 2, [5, 4]⟩)],
      1 ≤ q.2.1 ∧ q.2.1 ≤ 2 ∧ q.2.2.n = 1 ∧ q.2.2.rows = 1 ∧ q.2.2.cols = 2) ∧
    (assignAll true (cmpInit true 2 1 1 2 (some [1, 2])) [("art", 1, (⟨1, 1, 2, [0, 3]⟩ : Arr ℚ)),
      ("sirt", 2, ⟨1, 1, 2, [5, 4]⟩)]).1.delta 0 0 4 = some 2 := by
  decide +kernel

example : Sized (cmpInit true 1 1 2 1 (some [1, (2 : ℚ)])) ⟨1, 2, 1, [0, 1]⟩ := ⟨rfl, rfl, rfl⟩

end Tomopy.Bench
