import Verif.Bench.Compare

/-! C197: `rescale_image` of source/tomopy/misc/benchmark.py. -/
set_option linter.unusedSectionVars false

namespace Tomopy.Bench

variable {K : Type} [Field K] [LinearOrder K]

/-! ### Model -/

/-- The argument `scale` (misc/benchmark.py:214): an integer, or a number of another type such as `1.5` or `2.0`,
whose product with a length is not an integer for Python. -/
inductive Scale where
  | int (s : Int)
  | float

/-- `skimage.transform.resize(image, shape, anti_aliasing=False, mode='constant')` (misc/benchmark.py:225-228) of an
image of `rows` × `cols` pixels to `r` × `c` pixels, flattened; `none` if it raises.  A parameter of the model. -/
abbrev Resize (K : Type) := (rows cols : Nat) → List K → (r c : Nat) → Option (List K)

/-- misc/benchmark.py:225 `rec_n[i]`: image `i` of flattened data. -/
def imageOf (a : Arr K) (d : List K) (i : Nat) : List K := (d.drop (i * (a.rows * a.cols))).take (a.rows * a.cols)

/-- misc/benchmark.py:218-230, the block inside `try`; `none` is any exception.  `sk = none`: `skimage` cannot be
imported.  Line 222 raises for an empty stack, 224 for sizes that are negative or not integers, 225 for an image the
stack does not have and when `resize` raises.  `transform` is `true` only for the object `True` (221). -/
def rescaleTry (sk : Option (Resize K)) (transform : Bool) (nimages : Nat) (scale : Scale) (a : Arr K) (d : List K) :
    Option (Arr K) :=
  match sk with
  | none => none                                                                        -- 220
  | some rs =>
    if transform then                                                                   -- 221
      if a.n = 0 then none else                                                         -- 222
      match scale with
      | .float => none                                                                  -- 224: TypeError
      | .int s =>
        if (a.rows : Int) * s < 0 ∨ (a.cols : Int) * s < 0 then none else               -- 224: ValueError
        let r := ((a.rows : Int) * s).toNat
        let c := ((a.cols : Int) * s).toNat
        ((List.range nimages).mapM fun i =>
          if i < a.n then rs a.rows a.cols (imageOf a d i) r c else none).map            -- 225-229
          fun imgs => ⟨nimages, r, c, imgs.flatten⟩
    else some ⟨a.n, a.rows, a.cols, d⟩

/-- misc/benchmark.py:213-236 `rescale_image`; `f`: the array is a float array.  An exception is printed and a copy of
the argument returned (232-234). -/
def rescale (f : Bool) (sk : Option (Resize K)) (transform : Bool) (nimages : Nat) (scale : Scale) (a : Arr K) : Arr K :=
  match rescaleTry sk transform nimages scale a (normalize f a.data) with               -- 217
  | some r => r
  | none => a

/-! ### Specification -/

/-- All values of the stack are in `[-1, 1]`. -/
def InRange (a : Arr K) : Prop := ∀ y ∈ a.data, -1 ≤ y ∧ y ≤ 1

/-- `resize` of an image in `[-1, 1]` is in `[-1, 1]`, and has the size asked for. -/
def Resize.Good (rs : Resize K) : Prop :=
  ∀ rows cols img r c out, rs rows cols img r c = some out →
    out.length = r * c ∧ ((∀ y ∈ img, -1 ≤ y ∧ y ≤ 1) → ∀ y ∈ out, -1 ≤ y ∧ y ≤ 1)

/-- The call can be carried out: `skimage` is there, the factor is a positive integer, the stack has the images asked
for, and `resize` accepts each of them. -/
def Possible (sk : Option (Resize K)) (nimages : Nat) (scale : Scale) (a : Arr K) (d : List K) : Prop :=
  ∃ rs s, sk = some rs ∧ scale = .int s ∧ a.n ≠ 0 ∧ 0 ≤ (a.rows : Int) * s ∧ 0 ≤ (a.cols : Int) * s ∧ nimages ≤ a.n ∧
    ∀ i < nimages, rs a.rows a.cols (imageOf a d i) ((a.rows : Int) * s).toNat ((a.cols : Int) * s).toNat ≠ none

/-! ### Lemmas -/

theorem mapM_some_iff {α β : Type} (f : α → Option β) (l : List α) :
    l.mapM f ≠ none ↔ ∀ x ∈ l, f x ≠ none := by
  induction l with
  | nil => simp
  | cons x xs ih =>
    simp only [List.mapM_cons, List.mem_cons, forall_eq_or_imp]
    rw [← ih]
    cases hx : f x with
    | none => simp
    | some b =>
      cases hxs : xs.mapM f with
      | none => simp
      | some bs => simp

theorem mapM_some_eq {α β : Type} [Inhabited β] (f : α → Option β) (l : List α) (r : List β) (h : l.mapM f = some r) :
    r = l.map fun x => (f x).getD default := by
  induction l generalizing r with
  | nil => simp at h; simp [← h]
  | cons x xs ih =>
    simp only [List.mapM_cons] at h
    cases hx : f x with
    | none => rw [hx] at h; simp at h
    | some b =>
      cases hxs : xs.mapM f with
      | none => rw [hx, hxs] at h; simp at h
      | some bs =>
        rw [hx, hxs] at h
        simp at h
        rw [← h, ih bs hxs, List.map_cons, hx]
        rfl

theorem rescaleTry_none_iff (sk : Option (Resize K)) (nimages : Nat) (scale : Scale) (a : Arr K) (d : List K) :
    rescaleTry sk true nimages scale a d = none ↔ ¬ Possible sk nimages scale a d := by
  unfold Possible rescaleTry
  cases sk with
  | none => simp
  | some rs =>
    simp only [if_true]
    by_cases h0 : a.n = 0
    · rw [if_pos h0]; simp [h0]
    · rw [if_neg h0]
      cases scale with
      | float => simp
      | int s =>
        simp only
        by_cases hs : (a.rows : Int) * s < 0 ∨ (a.cols : Int) * s < 0
        · rw [if_pos hs]
          simp only [true_iff]
          rintro ⟨rs', s', h1, h2, _, h3, h4, _⟩
          cases h2
          omega
        · rw [if_neg hs, Option.map_eq_none_iff]
          have key := mapM_some_iff (fun i => if i < a.n then
            rs a.rows a.cols (imageOf a d i) ((a.rows : Int) * s).toNat ((a.cols : Int) * s).toNat else none)
            (List.range nimages)
          rw [← not_iff_not, not_not]
          refine key.trans ?_
          constructor
          · intro h
            have hlt : ∀ i < nimages, i < a.n := by
              intro i hi
              by_contra hc
              exact h i (List.mem_range.2 hi) (if_neg hc)
            refine ⟨rs, s, rfl, rfl, h0, by omega, by omega, ?_, ?_⟩
            · by_contra hc
              exact absurd (hlt a.n (not_le.1 hc)) (lt_irrefl _)
            · intro i hi hn
              refine h i (List.mem_range.2 hi) ?_
              rw [if_pos (hlt i hi)]; exact hn
          · rintro ⟨rs', s', h1, h2, _, _, _, hle, h⟩ i hi
            cases h1; cases h2
            have hi' := List.mem_range.1 hi
            simp only [if_pos (lt_of_lt_of_le hi' hle)]
            exact h i hi'

theorem flatten_image (l : List (List K)) (w : Nat) (hw : ∀ x ∈ l, x.length = w) (i : Nat) (hi : i < l.length) :
    (l.flatten.drop (i * w)).take w = l[i] := by
  induction l generalizing i with
  | nil => simp at hi
  | cons x xs ih =>
    have hx : x.length = w := hw x (by simp)
    cases i with
    | zero => simp [List.take_left' hx]
    | succ i =>
      have : (i + 1) * w = x.length + i * w := by rw [hx]; ring
      rw [List.flatten_cons, this, List.drop_length_add_append]
      simpa using ih (fun y hy => hw y (by simp [hy])) i (by simpa using hi)

/-! ### C197 -/

/-- **C197** Which calls are carried out: exactly the possible ones.  All others return the argument as it is — not
normalised, of its old size and with all its images — and raise nothing. -/
theorem rescale_fallback (f : Bool) (sk : Option (Resize K)) (nimages : Nat) (scale : Scale) (a : Arr K)
    (h : ¬ Possible sk nimages scale a (normalize f a.data)) : rescale f sk true nimages scale a = a := by
  unfold rescale
  rw [(rescaleTry_none_iff _ _ _ _ _).2 h]

/-- **C197** A possible call returns the first `nimages` images, each of them resized by the factor after the whole
stack has been normalised. -/
theorem rescale_images (f : Bool) (rs : Resize K) (hrs : rs.Good) (nimages : Nat) (s : Int) (a : Arr K)
    (h : Possible (some rs) nimages (.int s) a (normalize f a.data)) :
    let r := rescale f (some rs) true nimages (.int s) a
    r.n = nimages ∧ (r.rows : Int) = a.rows * s ∧ (r.cols : Int) = a.cols * s ∧
    r.data.length = r.n * (r.rows * r.cols) ∧
    ∀ i < nimages, some (imageOf r r.data i) =
      rs a.rows a.cols (imageOf a (normalize f a.data) i) r.rows r.cols := by
  have hne : rescaleTry (some rs) true nimages (.int s) a (normalize f a.data) ≠ none :=
    fun hc => (rescaleTry_none_iff _ _ _ _ _).1 hc h
  obtain ⟨r, hr⟩ := Option.ne_none_iff_exists'.1 hne
  obtain ⟨rs', s', h1, h2, h0, hp, hq, hle, hall⟩ := h
  cases h1; cases h2
  have hres : rescale f (some rs) true nimages (.int s) a = r := by unfold rescale; rw [hr]
  rw [hres]
  simp only [rescaleTry, if_true] at hr
  rw [if_neg h0, if_neg (by omega), Option.map_eq_some_iff] at hr
  obtain ⟨imgs, him, rfl⟩ := hr
  have heq := mapM_some_eq _ _ _ him
  have hval : ∀ i < nimages, ∃ out, rs a.rows a.cols (imageOf a (normalize f a.data) i)
      ((a.rows : Int) * s).toNat ((a.cols : Int) * s).toNat = some out := fun i hi =>
    Option.ne_none_iff_exists'.1 (hall i hi)
  have hlen : imgs.length = nimages := by rw [heq]; simp
  have hw : ∀ x ∈ imgs, x.length = ((a.rows : Int) * s).toNat * ((a.cols : Int) * s).toNat := by
    intro x hx
    rw [heq] at hx
    obtain ⟨i, hi, rfl⟩ := List.mem_map.1 hx
    have hi' := List.mem_range.1 hi
    obtain ⟨out, ho⟩ := hval i hi'
    rw [if_pos (lt_of_lt_of_le hi' hle), ho]
    exact (hrs _ _ _ _ _ _ ho).1
  refine ⟨rfl, Int.toNat_of_nonneg hp, Int.toNat_of_nonneg hq, ?_, ?_⟩
  · simp only
    rw [List.length_flatten, List.map_congr_left (g := fun _ => ((a.rows : Int) * s).toNat * ((a.cols : Int) * s).toNat)
      hw, List.map_const', List.sum_replicate, hlen, smul_eq_mul]
  · intro i hi
    obtain ⟨out, ho⟩ := hval i hi
    simp only [imageOf] at ho ⊢
    rw [flatten_image imgs _ hw i (by rw [hlen]; exact hi), ho]
    congr 1
    subst heq
    simp only [List.getElem_map, List.getElem_range]
    rw [if_pos (lt_of_lt_of_le hi hle)]
    simp only [imageOf, ho, Option.getD_some]

/-- **C197** Partial: the result lies in `[-1, 1]` for a float stack and a call that is carried out.  Missing: the calls
that are not (`rescale_fallback`, `rescale_leaves_range`). -/
theorem rescale_range_partial [IsStrictOrderedRing K] (rs : Resize K) (hrs : rs.Good) (nimages : Nat) (s : Int)
    (a : Arr K) (h : Possible (some rs) nimages (.int s) a (normalize true a.data)) :
    InRange (rescale true (some rs) true nimages (.int s) a) := by
  have hne : rescaleTry (some rs) true nimages (.int s) a (normalize true a.data) ≠ none :=
    fun hc => (rescaleTry_none_iff _ _ _ _ _).1 hc h
  obtain ⟨r, hr⟩ := Option.ne_none_iff_exists'.1 hne
  obtain ⟨rs', s', h1, h2, h0, hp, hq, hle, hall⟩ := h
  cases h1; cases h2
  have hres : rescale true (some rs) true nimages (.int s) a = r := by unfold rescale; rw [hr]
  rw [hres]
  simp only [rescaleTry, if_true] at hr
  rw [if_neg h0, if_neg (by omega), Option.map_eq_some_iff] at hr
  obtain ⟨imgs, him, rfl⟩ := hr
  have heq := mapM_some_eq _ _ _ him
  intro y hy
  obtain ⟨x, hx, hyx⟩ := List.mem_flatten.1 hy
  rw [heq] at hx
  obtain ⟨i, hi, rfl⟩ := List.mem_map.1 hx
  have hi' := List.mem_range.1 hi
  rw [if_pos (lt_of_lt_of_le hi' hle)] at hyx
  obtain ⟨out, ho⟩ := Option.ne_none_iff_exists'.1 (hall i hi')
  rw [ho] at hyx
  refine (hrs _ _ _ _ _ _ ho).2 ?_ y hyx
  intro z hz
  have hz' : z ∈ normalize true a.data := List.mem_of_mem_drop (List.mem_of_mem_take hz)
  refine (normalize_range a.data ?_).2.2 z hz'
  rintro hnil
  rw [hnil] at hz'
  simp [normalize] at hz'

/-- **C197** Refutation: with a factor such as `2.0` or `1.5`, or with more images than there are, any stack with a value
outside `[-1, 1]` keeps it: the documented scaling by a positive factor does not take place. -/
theorem rescale_leaves_range (f : Bool) (sk : Option (Resize K)) (nimages : Nat) (scale : Scale) (a : Arr K)
    (hc : scale = .float ∨ a.n < nimages) (hv : ¬ InRange a) :
    ¬ InRange (rescale f sk true nimages scale a) ∧ rescale f sk true nimages scale a = a := by
  have h := rescale_fallback f sk nimages scale a (by
    rintro ⟨rs, s, _, h2, _, _, _, hle, _⟩
    rcases hc with hc | hc
    · rw [hc] at h2; cases h2
    · omega)
  rw [h]
  exact ⟨hv, rfl⟩

/-- **C197** Without `transform` the stack is only normalised — if `skimage` is there; else not even that. -/
theorem rescale_no_transform (f : Bool) (sk : Option (Resize K)) (nimages : Nat) (scale : Scale) (a : Arr K) :
    rescale f sk false nimages scale a =
      if sk.isSome then ⟨a.n, a.rows, a.cols, normalize f a.data⟩ else a := by
  unfold rescale rescaleTry
  cases sk with
  | none => rfl
  | some rs => rfl

/-- **C197** Brightness and contrast of the stack do not matter to a call that is carried out. -/
theorem rescale_contrast [IsStrictOrderedRing K] (rs : Resize K) (nimages : Nat) (s : Int) (a : Arr K) (u v : K)
    (hu : 0 < u) (h : Possible (some rs) nimages (.int s) a (normalize true a.data)) :
    rescale true (some rs) true nimages (.int s) ⟨a.n, a.rows, a.cols, a.data.map fun x => u * x + v⟩ =
      rescale true (some rs) true nimages (.int s) a := by
  have hne : rescaleTry (some rs) true nimages (.int s) a (normalize true a.data) ≠ none :=
    fun hc => (rescaleTry_none_iff _ _ _ _ _).1 hc h
  obtain ⟨r, hr⟩ := Option.ne_none_iff_exists'.1 hne
  by_cases hnil : a.data = []
  · simp only [hnil, List.map_nil]
    congr 1
    cases a
    simp_all
  · have hn := normalize_affine a.data u v hu
    unfold rescale
    rw [hr]
    simp only
    rw [hn]
    have : rescaleTry (some rs) true nimages (.int s) ⟨a.n, a.rows, a.cols, a.data.map fun x => u * x + v⟩
        (normalize true a.data) = rescaleTry (some rs) true nimages (.int s) a (normalize true a.data) := rfl
    rw [this, hr]

/-! A concrete case: every output pixel gets the value of the input pixel it lies in. -/

/-- Nearest pixel, for sizes that are multiples of the old ones. -/
def nearestPixel : Resize ℚ := fun rows cols img r c =>
  some ((List.range (r * c)).map fun k => img.getD (k / c * rows / r * cols + k % c * cols / c) 0)

theorem nearestPixel_good : nearestPixel.Good := by
  intro rows cols img r c out h
  cases h
  refine ⟨by simp, ?_⟩
  intro hin y hy
  obtain ⟨k, _, rfl⟩ := List.mem_map.1 hy
  rw [List.getD_eq_getElem?_getD]
  rcases hg : img[k / c * rows / r * cols + k % c * cols / c]? with _ | z
  · constructor <;> norm_num
  · exact hin z (List.mem_of_getElem? hg)

/-- Two images of 1 × 2 pixels. -/
def twoImages : Arr ℚ := ⟨2, 1, 2, [0, 1, 2, 4]⟩

example : Possible (some nearestPixel) 2 (.int 2) twoImages (normalize true twoImages.data) :=
  ⟨nearestPixel, 2, rfl, rfl, by decide, by decide, by decide, by decide, fun i _ h => by
    simp [nearestPixel] at h⟩

example : (rescale true (some nearestPixel) true 2 (.int 2) twoImages).data
    = [-1, -1, -1/2, -1/2, -1, -1, -1/2, -1/2, 0, 0, 1, 1, 0, 0, 1, 1] := by decide +kernel

example : ¬ InRange twoImages ∧ (rescale true (some nearestPixel) true 2 .float twoImages).data = [0, 1, 2, 4] :=
  ⟨fun h => absurd (h 4 (by decide)).2 (by norm_num), by decide +kernel⟩

end Tomopy.Bench
