import Verif.Morph.Props

/-! `morph.pad` (source/tomopy/misc/morph.py:73-178) of arrays with any number of axes, for every integer `axis` and
`npad` (**C196**).  `Verif/Morph/Model.lean` models one line of the array and a natural `npad`. -/
set_option linter.unusedSectionVars false
namespace Tomopy.Morph

/-- An array: `arr.shape` and the element at an index (morph.py:121-125). -/
structure Nd (α : Type) where
  /-- lengths of the axes -/
  shape : List Nat
  /-- element at an index with one entry per axis -/
  at_ : List Nat → α

/-- morph.py:122, 125, 127: `shape[axis]` and `slc[axis]` of a sequence of length `len`; negative values count from the
end, anything else outside is an `IndexError`. -/
def pyAxis (len : Nat) (axis : Int) : Except PyErr Nat :=
  if 0 ≤ axis ∧ axis < len then .ok axis.toNat
  else if axis < 0 ∧ -(len : Int) ≤ axis then .ok (axis + len).toNat
  else .error .index

/-- morph.py:127-132, 140, 148-151, 169, 175-178: `out[slc] = src` (or `ne.evaluate(..., out=out[slc])`) where `slc` is
`start:stop` along axis `ax` and full along the others.  Along `ax` a source of length one is repeated, any other length
than that of the slice is a `ValueError`; along the others the lengths agree because both come from `arr.shape`.
Data types are not modelled (the copy is exact because `out` has the type of `arr`). -/
def setAxis {α : Type} (out : Nd (Option α)) (ax : Nat) (start stop : Option Int) (src : Nd α) :
    Except PyErr (Nd (Option α)) :=
  let m := out.shape.getD ax 0
  let lo := pyIdx m 0 start
  let hi := pyIdx m m stop
  let s := src.shape.getD ax 0
  if s = hi - lo ∨ s = 1 then
    .ok ⟨out.shape, fun idx =>
      if lo ≤ idx.getD ax 0 ∧ idx.getD ax 0 < hi then
        some (src.at_ (idx.set ax (if s = 1 then 0 else idx.getD ax 0 - lo)))
      else out.at_ idx⟩
  else .error .value

/-- morph.py:144-145, 172-173: a number is assigned to a slice. -/
def setAxisConst {α : Type} (out : Nd (Option α)) (ax : Nat) (start stop : Option Int) (c : α) : Nd (Option α) :=
  let m := out.shape.getD ax 0
  ⟨out.shape, fun idx =>
    if pyIdx m 0 start ≤ idx.getD ax 0 ∧ idx.getD ax 0 < pyIdx m m stop then some c else out.at_ idx⟩

/-- morph.py:148, 150, 176, 178: `arr[slc]`, a slice `start:stop` along `ax`. -/
def getAxis {α : Type} (arr : Nd α) (ax : Nat) (start stop : Option Int) : Nd α :=
  let m := arr.shape.getD ax 0
  let lo := pyIdx m 0 start
  ⟨arr.shape.set ax (pyIdx m m stop - lo), fun idx => arr.at_ (idx.set ax (lo + idx.getD ax 0))⟩

/-- morph.py:167-178 `_get_slices` and 121-160 of `pad`: the array is written into the middle of a new, uninitialised
one (`none`), then both ends are filled. -/
def padInto {α : Type} (mode : String) (cval : α) (npad : Int) (axis : Int) (arr : Nd α) :
    Except PyErr (Nd (Option α)) := do
  let ax ← pyAxis arr.shape.length axis                                                -- 125
  let n : Int := (arr.shape.getD ax 0 : Nat)
  if n + 2 * npad < 0 then .error .value else                                          -- 135: np.empty
  let out : Nd (Option α) := ⟨arr.shape.set ax (n + 2 * npad).toNat, fun _ => none⟩
  let out ← setAxis out ax (some npad) (some (npad + n)) arr
  if mode = "constant" then
    let out := setAxisConst out ax (some 0) (some npad) cval
    return setAxisConst out ax (some (npad + n)) none cval
  else if mode = "edge" then
    let out ← setAxis out ax (some 0) (some npad) (getAxis arr ax (some 0) (some 1))
    setAxis out ax (some (npad + n)) none (getAxis arr ax (some (n - 1)) (some n))
  else return out

/-- morph.py:73-160 `pad(arr, axis, npad, mode, **kwargs)`; `npad = none` is the default, `cval` the value of
`constant_values`. -/
noncomputable def padNd {α : Type} (mode : PadMode) (kws : List String) (cval : α) (npad : Option Int) (axis : Int)
    (arr : Nd α) : Except PyErr (Nd (Option α)) := do
  let m ← padCheck mode kws                                                            -- 103-119
  match npad with
  | some p => padInto m cval p axis arr
  | none =>
    let ax ← pyAxis arr.shape.length axis                                              -- 122
    padInto m cval (getNpad (arr.shape.getD ax 0)) axis arr

/-! ### Specification -/

/-- `axis` names the axis `ax` of an array with `len` axes. -/
def Names (len : Nat) (axis : Int) (ax : Nat) : Prop := ax < len ∧ (axis = ax ∨ axis = (ax : Int) - len)

/-- The position in `0 … n-1` nearest to `i - p`. -/
def nearest (n p i : Nat) : Nat := min (i - p) (n - 1)

/-- The array the documentation describes: `p` more elements at both ends of axis `ax`. -/
def padded {α : Type} (edge : Bool) (cval : α) (p ax : Nat) (arr : Nd α) : Nd α :=
  let n := arr.shape.getD ax 0
  ⟨arr.shape.set ax (n + 2 * p), fun idx =>
    if edge ∨ (p ≤ idx.getD ax 0 ∧ idx.getD ax 0 < p + n) then
      arr.at_ (idx.set ax (nearest n p (idx.getD ax 0)))
    else cval⟩

/-- `idx` is an index of an array of this shape. -/
def Inside (shape idx : List Nat) : Prop :=
  idx.length = shape.length ∧ ∀ k < shape.length, idx.getD k 0 < shape.getD k 0

/-- The result `r` is the array `a`, with every element written. -/
def Is {α : Type} (r : Nd (Option α)) (a : Nd α) : Prop :=
  r.shape = a.shape ∧ ∀ idx, Inside a.shape idx → r.at_ idx = some (a.at_ idx)

/-! ### Lemmas -/

theorem pyAxis_ok (len : Nat) (axis : Int) (ax : Nat) : pyAxis len axis = .ok ax ↔ Names len axis ax := by
  unfold pyAxis Names
  split
  · rename_i h
    simp only [Except.ok.injEq]
    omega
  · split
    · rename_i h1 h
      simp only [Except.ok.injEq]
      omega
    · simp only [reduceCtorEq, false_iff]
      omega

theorem pyAxis_error (len : Nat) (axis : Int) (e : PyErr) :
    pyAxis len axis = .error e ↔ e = .index ∧ ¬ (-(len : Int) ≤ axis ∧ axis < len) := by
  unfold pyAxis
  split
  · simp only [reduceCtorEq, false_iff]; omega
  · split
    · simp only [reduceCtorEq, false_iff]; omega
    · simp only [Except.error.injEq]
      constructor
      · rintro rfl; exact ⟨rfl, by omega⟩
      · rintro ⟨rfl, _⟩; rfl

theorem getD_set_self (l : List Nat) (k v : Nat) (h : k < l.length) : (l.set k v).getD k 0 = v := by
  rw [List.getD_eq_getElem?_getD, List.getElem?_set_self h]; rfl

theorem getD_set_ne (l : List Nat) (k j v : Nat) (h : k ≠ j) : (l.set k v).getD j 0 = l.getD j 0 := by
  rw [List.getD_eq_getElem?_getD, List.getElem?_set_ne h, ← List.getD_eq_getElem?_getD]

/-- What `padInto` does for a valid axis, depending on the sign of the width. -/
theorem padInto_nonneg {α : Type} (mode : String) (cval : α) (p : Nat) (axis : Int) (arr : Nd α) (ax : Nat)
    (hax : Names arr.shape.length axis ax) (hm : mode = "constant" ∨ mode = "edge") :
    if mode = "edge" ∧ arr.shape.getD ax 0 = 0 ∧ p ≠ 0 then padInto mode cval p axis arr = .error .value
    else ∃ r, padInto mode cval p axis arr = .ok r ∧ Is r (padded (mode = "edge") cval p ax arr) := by
  have hlt := hax.1
  have hok := (pyAxis_ok _ _ _).2 hax
  obtain ⟨n, hn⟩ : ∃ n, arr.shape.getD ax 0 = n := ⟨_, rfl⟩
  rw [hn]
  have e0 : (0 : Int) ≤ n + 2 * (p : Int) := by omega
  have b1 : ∀ d, pyIdx (n + 2 * p) d (some (p : Int)) = p := by
    intro d; simp only [pyIdx, pyBound]; split <;> omega
  have b2 : ∀ d, pyIdx (n + 2 * p) d (some ((p : Int) + n)) = p + n := by
    intro d; simp only [pyIdx, pyBound]; split <;> omega
  have b3 : ∀ m d, pyIdx m d (some 0) = 0 := by
    intro m d; simp [pyIdx, pyBound]
  have b4 : ∀ m d, pyIdx m d none = d := fun _ _ => rfl
  have b5 : pyIdx n n (some 1) = min 1 n := by
    simp only [pyIdx, pyBound]; split <;> omega
  have b6 : ∀ d, pyIdx n d (some ((n : Int) - 1)) = n - 1 := by
    intro d; simp only [pyIdx, pyBound]; split <;> omega
  have b7 : ∀ d, pyIdx n d (some (n : Int)) = n := by
    intro d; simp only [pyIdx, pyBound]; split <;> omega
  have e1 : ((n : Int) + 2 * (p : Int)).toNat = n + 2 * p := by omega
  have g1 : (arr.shape.set ax (n + 2 * p)).getD ax 0 = n + 2 * p := getD_set_self _ _ _ hlt
  have g2 : ∀ v, (arr.shape.set ax v).getD ax 0 = v := fun v => getD_set_self _ _ _ hlt
  unfold padInto
  simp only [hok, bind, Except.bind, hn]
  have c1 : ¬ ((n : Int) + 2 * (p : Int) < 0) := by omega
  have c2 : n = p + n - p ∨ n = 1 := Or.inl (by omega)
  simp only [c1, if_false, setAxis, setAxisConst, getAxis, e1, g1, b1, b2, b3, b4, hn, b5, b6, b7, g2]
  simp only [c2, if_true, g1, b1, b2]
  clear c2
  rcases hm with rfl | rfl
  · rw [if_neg (by rintro ⟨h, _⟩; exact absurd h (by decide))]
    simp only [if_true]
    refine ⟨_, rfl, by simp only [padded, hn], ?_⟩
    rintro idx ⟨hl, hidx⟩
    have hl' : ax < idx.length := by
      rw [hl]; simpa [padded] using hlt
    have hi : idx.getD ax 0 < n + 2 * p := by
      have := hidx ax (by simpa [padded] using hlt)
      simpa only [padded, hn, g1] using this
    simp only [padded, hn]
    simp only [show decide ("constant" = "edge") = false by decide, Bool.false_eq_true, false_or]
    split
    · rename_i h
      rw [if_neg (by omega)]
    · rename_i h
      split
      · rename_i h'
        rw [if_neg (by omega)]
      · rename_i h'
        have hc : p ≤ idx.getD ax 0 ∧ idx.getD ax 0 < p + n := by omega
        simp only [hc, and_self, if_true]
        congr 3
        unfold nearest
        split <;> omega
  · simp only [show ¬ ("edge" = "constant") by decide, if_false, if_true, true_and]
    by_cases hz : n = 0
    · by_cases hp : p = 0
      · rw [if_neg (by omega)]
        have d1 : min 1 n - 0 = p - 0 ∨ min 1 n - 0 = 1 := Or.inl (by omega)
        have d2 : n - (n - 1) = n + 2 * p - (p + n) ∨ n - (n - 1) = 1 := Or.inl (by omega)
        simp only [d1, d2, if_true, g1, b2]
        refine ⟨_, rfl, ?_, ?_⟩
        · simp only [padded, hn, hz]
        · rintro idx ⟨hl, hidx⟩
          have := hidx ax (by simpa [padded] using hlt)
          simp only [padded, hn, g1] at this
          omega
      · rw [if_pos ⟨hz, hp⟩]
        have d1 : ¬ (min 1 n - 0 = p - 0 ∨ min 1 n - 0 = 1) := by omega
        simp only [d1, if_false]
    · rw [if_neg (by omega)]
      have d1 : min 1 n - 0 = p - 0 ∨ min 1 n - 0 = 1 := Or.inr (by omega)
      have d2 : n - (n - 1) = n + 2 * p - (p + n) ∨ n - (n - 1) = 1 := Or.inr (by omega)
      simp only [d1, d2, if_true, g1, b2]
      refine ⟨_, rfl, by simp only [padded, hn], ?_⟩
      rintro idx ⟨hl, hidx⟩
      have hl' : ax < idx.length := by
        rw [hl]; simpa [padded] using hlt
      have hi : idx.getD ax 0 < n + 2 * p := by
        have := hidx ax (by simpa [padded] using hlt)
        simpa only [padded, hn, g1] using this
      simp only [padded, hn]
      simp only [decide_true, true_or, if_true, getD_set_self idx ax _ hl', List.set_set]
      split
      · rename_i h
        congr 3
        unfold nearest
        split <;> omega
      · split
        · congr 3
          unfold nearest
          split <;> omega
        · rw [if_pos (by omega)]
          congr 3
          unfold nearest
          split <;> omega

/-- A negative width always raises. -/
theorem padInto_neg {α : Type} (mode : String) (cval : α) (npad axis : Int) (arr : Nd α) (ax : Nat)
    (hax : Names arr.shape.length axis ax) (hneg : npad < 0) : padInto mode cval npad axis arr = .error .value := by
  have hlt := hax.1
  have hok := (pyAxis_ok _ _ _).2 hax
  obtain ⟨n, hn⟩ : ∃ n, arr.shape.getD ax 0 = n := ⟨_, rfl⟩
  unfold padInto
  simp only [hok, bind, Except.bind, hn]
  split
  · rfl
  · rename_i h
    have g2 : ∀ v, (arr.shape.set ax v).getD ax 0 = v := fun v => getD_set_self _ _ _ hlt
    simp only [setAxis, g2, hn]
    rw [if_neg]
    simp only [pyIdx, pyBound]
    rw [if_pos hneg]
    split <;> omega

/-! ### C196 -/

variable {α : Type}

/-- **C196** `pad` accepts an axis counted from the front or from the back and every non-negative width: the result is
the array with `npad` further elements at both ends of that axis and no others, each of them the constant or the
nearest element of the array, nothing is left unwritten and the array itself lies in the middle.  (`edge` needs an
element to repeat.) -/
theorem padNd_correct (mode : PadMode) (kws : List String) (cval : α) (p : Nat) (axis : Int) (arr : Nd α) (ax : Nat)
    (m : String) (hm : padCheck mode kws = .ok m) (hax : Names arr.shape.length axis ax)
    (hedge : m = "edge" → arr.shape.getD ax 0 ≠ 0 ∨ p = 0) :
    ∃ r, padNd mode kws cval (some p) axis arr = .ok r ∧ Is r (padded (m = "edge") cval p ax arr) := by
  have hmode : m = "constant" ∨ m = "edge" := by
    rcases pad_check mode kws with ⟨m', h1, _, h3⟩ | ⟨h1, _⟩
    · rw [hm] at h1; cases h1
      exact h3.imp And.left And.left
    · rw [hm] at h1; cases h1
  have h := padInto_nonneg m cval p axis arr ax hax hmode
  rw [if_neg (by
    rintro ⟨h1, h2, h3⟩
    rcases hedge h1 with h | h
    · exact h h2
    · exact h3 h)] at h
  obtain ⟨r, hr, his⟩ := h
  refine ⟨r, ?_, his⟩
  simp only [padNd, hm, bind, Except.bind]
  exact hr

/-- **C196** The calls of `pad` that raise, and what: an unknown mode or keyword, then an axis the array does not have,
then a negative width (never a cropped array) and an edge that does not exist. -/
theorem padNd_raises (mode : PadMode) (kws : List String) (cval : α) (npad axis : Int) (arr : Nd α) (e : PyErr) :
    padNd mode kws cval (some npad) axis arr = .error e ↔
      (e = .value ∧ padCheck mode kws = .error .value) ∨
      (∃ m, padCheck mode kws = .ok m ∧
        ((e = .index ∧ ¬ (-(arr.shape.length : Int) ≤ axis ∧ axis < arr.shape.length)) ∨
         (e = .value ∧ ∃ ax, Names arr.shape.length axis ax ∧
            (npad < 0 ∨ (m = "edge" ∧ arr.shape.getD ax 0 = 0 ∧ npad ≠ 0))))) := by
  rcases pad_check mode kws with ⟨m, h1, h2, h3⟩ | ⟨h1, _⟩
  · have hmode : m = "constant" ∨ m = "edge" := h3.imp And.left And.left
    simp only [padNd, h1, bind, Except.bind, reduceCtorEq, and_false, false_or, Except.ok.injEq, exists_eq_left']
    rcases hp : pyAxis arr.shape.length axis with e' | ax
    · have he := (pyAxis_error _ _ _).1 hp
      have : padInto m cval npad axis arr = .error e' := by
        unfold padInto; rw [hp]; rfl
      rw [this, he.1]
      simp only [Except.error.injEq]
      constructor
      · rintro rfl; exact Or.inl ⟨rfl, he.2⟩
      · rintro (⟨h, _⟩ | ⟨_, ax, hax, _⟩)
        · exact h.symm
        · rw [(pyAxis_ok _ _ _).2 hax] at hp; cases hp
    · have hax := (pyAxis_ok _ _ _).1 hp
      have hin : -(arr.shape.length : Int) ≤ axis ∧ axis < arr.shape.length := by
        have := hax.1
        rcases hax.2 with h | h <;> omega
      have huniq : ∀ ax', Names arr.shape.length axis ax' → ax' = ax := by
        intro ax' h'
        rw [(pyAxis_ok _ _ _).2 h'] at hp
        exact Except.ok.inj hp
      by_cases hneg : npad < 0
      · rw [padInto_neg m cval npad axis arr ax hax hneg]
        constructor
        · rintro h; cases h; exact Or.inr ⟨rfl, ax, hax, Or.inl hneg⟩
        · rintro (⟨_, h⟩ | ⟨rfl, _⟩)
          · exact absurd hin h
          · rfl
      · obtain ⟨p, rfl⟩ := Int.eq_ofNat_of_zero_le (not_lt.1 hneg)
        have h := padInto_nonneg m cval p axis arr ax hax hmode
        split at h
        · rename_i hc
          rw [h]
          constructor
          · rintro h; cases h
            exact Or.inr ⟨rfl, ax, hax, Or.inr ⟨hc.1, hc.2.1, by exact_mod_cast hc.2.2⟩⟩
          · rintro (⟨_, h⟩ | ⟨rfl, _⟩)
            · exact absurd hin h
            · rfl
        · rename_i hc
          obtain ⟨r, hr, _⟩ := h
          rw [hr]
          simp only [reduceCtorEq, false_iff]
          rintro (⟨_, h⟩ | ⟨_, ax', hax', h | ⟨h1, h2, h3⟩⟩)
          · exact h hin
          · exact hneg h
          · rw [huniq ax' hax'] at h2
            exact hc ⟨h1, h2, by exact_mod_cast h3⟩
  · simp only [padNd, h1, bind, Except.bind, Except.error.injEq, reduceCtorEq, false_and, exists_false, or_false,
      and_true]
    exact eq_comm

/-- **C196** An axis counted from the back is the axis counted from the front. -/
theorem padNd_axis_back (mode : PadMode) (kws : List String) (cval : α) (npad : Option Int) (ax : Nat) (arr : Nd α)
    (h : ax < arr.shape.length) :
    padNd mode kws cval npad ((ax : Int) - arr.shape.length) arr = padNd mode kws cval npad ax arr := by
  have h1 := (pyAxis_ok arr.shape.length ((ax : Int) - arr.shape.length) ax).2 ⟨h, Or.inr rfl⟩
  have h2 := (pyAxis_ok arr.shape.length ax ax).2 ⟨h, Or.inl rfl⟩
  simp only [padNd, padInto, h1, h2]

/-- **C196** Without `npad` the axis grows to at least `sqrt 2` times its length, and by less than two elements more
than that. -/
theorem padNd_default (mode : PadMode) (kws : List String) (cval : α) (axis : Int) (arr : Nd α) (ax : Nat)
    (m : String) (hm : padCheck mode kws = .ok m) (hax : Names arr.shape.length axis ax)
    (hn : arr.shape.getD ax 0 ≠ 0) :
    ∃ p r, padNd mode kws cval none axis arr = .ok r ∧ Is r (padded (m = "edge") cval p ax arr) ∧
      2 * ((arr.shape.getD ax 0 : Nat) : ℝ) ^ 2 ≤ ((r.shape.getD ax 0 : Nat) : ℝ) ^ 2 ∧
      ((r.shape.getD ax 0 : Nat) : ℝ) < (arr.shape.getD ax 0 : Nat) * Real.sqrt 2 + 2 := by
  obtain ⟨r, hr, his⟩ := padNd_correct mode kws cval (getNpad (arr.shape.getD ax 0)) axis arr ax m hm hax
    (fun _ => Or.inl hn)
  refine ⟨_, r, ?_, his, ?_⟩
  · rw [← hr]
    simp only [padNd, hm, bind, Except.bind, (pyAxis_ok _ _ _).2 hax]
  · rw [his.1]
    simp only [padded]
    rw [getD_set_self _ _ _ hax.1]
    exact getNpad_spec _

/-- **C196** Padding in two steps is padding by the sum of the widths (`edge`: of an array with an element to repeat). -/
theorem pad_twice (edge : Bool) (cval : α) (p q ax : Nat) (arr : Nd α) (hax : ax < arr.shape.length)
    (hn : edge = true → arr.shape.getD ax 0 ≠ 0) :
    (padded edge cval q ax (padded edge cval p ax arr)).shape = (padded edge cval (p + q) ax arr).shape ∧
    ∀ idx, Inside (padded edge cval (p + q) ax arr).shape idx →
      (padded edge cval q ax (padded edge cval p ax arr)).at_ idx = (padded edge cval (p + q) ax arr).at_ idx := by
  have g : ∀ v, (arr.shape.set ax v).getD ax 0 = v := fun v => getD_set_self _ _ _ hax
  constructor
  · simp only [padded, g, List.set_set]
    congr 1; omega
  · rintro idx ⟨hl, hidx⟩
    have hl' : ax < idx.length := by
      rw [hl]; simpa [padded] using hax
    have hi := hidx ax (by simpa [padded] using hax)
    simp only [padded, g] at hi
    simp only [padded, g, getD_set_self idx ax _ hl', List.set_set, nearest]
    set n := arr.shape.getD ax 0 with hndef
    set i := idx.getD ax 0
    cases edge with
    | true =>
      have := hn rfl
      simp only [true_or, if_true]
      congr 2
      omega
    | false =>
      simp only [Bool.false_eq_true, false_or]
      by_cases h1 : q ≤ i ∧ i < q + (n + 2 * p)
      · rw [if_pos h1]
        by_cases h2 : p + q ≤ i ∧ i < p + q + n
        · rw [if_pos h2, if_pos (by omega)]
          congr 2
          omega
        · rw [if_neg h2, if_neg (by omega)]
      · rw [if_neg h1, if_neg (by omega)]

/-- **C196** Paddings of two axes may be done in either order. -/
theorem pad_axes_commute (edge : Bool) (cval : α) (p q ax bx : Nat) (arr : Nd α) (hne : ax ≠ bx) :
    (padded edge cval q bx (padded edge cval p ax arr)).shape = (padded edge cval p ax (padded edge cval q bx arr)).shape ∧
    ∀ idx, (padded edge cval q bx (padded edge cval p ax arr)).at_ idx =
      (padded edge cval p ax (padded edge cval q bx arr)).at_ idx := by
  have g1 : ∀ v, (arr.shape.set ax v).getD bx 0 = arr.shape.getD bx 0 := fun v => getD_set_ne _ _ _ _ hne
  have g2 : ∀ v, (arr.shape.set bx v).getD ax 0 = arr.shape.getD ax 0 := fun v => getD_set_ne _ _ _ _ hne.symm
  constructor
  · simp only [padded, g1, g2]
    exact List.set_comm _ _ hne
  · intro idx
    have k1 : ∀ v, (idx.set ax v).getD bx 0 = idx.getD bx 0 := fun v => getD_set_ne _ _ _ _ hne
    have k2 : ∀ v, (idx.set bx v).getD ax 0 = idx.getD ax 0 := fun v => getD_set_ne _ _ _ _ hne.symm
    simp only [padded, g1, g2, k1, k2]
    rw [List.set_comm _ _ hne]
    split <;> split <;> rfl

/-! A concrete case: a 2×3 array padded along its last axis. -/

example : Names 2 (-1) 1 ∧ padCheck (.str "edge") [] = .ok "edge" ∧
    (⟨[2, 3], fun idx => 10 * idx.getD 0 0 + idx.getD 1 0⟩ : Nd Nat).shape.getD 1 0 ≠ 0 :=
  ⟨⟨by decide, Or.inr (by decide)⟩, by decide, by decide⟩

example : (match padInto "edge" (0 : Nat) 2 (-1) ⟨[2, 3], fun idx => 10 * idx.getD 0 0 + idx.getD 1 0⟩ with
    | .ok r => (r.shape, (List.range 7).map fun i => r.at_ [1, i])
    | .error _ => ([], []))
    = ([2, 7], [some 10, some 10, some 10, some 11, some 12, some 12, some 12]) := by decide +kernel

example : (match padInto "constant" (9 : Nat) (-1) 1 ⟨[2, 5], fun _ => 0⟩ with
    | .ok _ => none | .error e => some e) = some PyErr.value := by decide +kernel

example : Inside (padded true (0 : Nat) 3 1 ⟨[2, 3], fun _ => 1⟩).shape [1, 8] :=
  ⟨by decide, by intro k hk; simp [padded] at hk ⊢; interval_cases k <;> decide⟩

end Tomopy.Morph
