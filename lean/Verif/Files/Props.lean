import Verif.Files.Model
import Mathlib.Data.Rat.Floor
import Mathlib.Tactic.Linarith
import Mathlib.Tactic.FieldSimp
import Mathlib.Tactic.Ring
import Mathlib.Tactic.NormNum
import Verif.Center.Props

/-! C55: file names of `write_tiff`; C48: files of `write_center`. -/

set_option linter.unusedSectionVars false

namespace Tomopy.Files

/-! ### Decimal numbers -/

theorem decNat_inj (a b : Nat) (h : decNat a = decNat b) : a = b := by
  unfold decNat at h
  have := congrArg (fun l => Nat.ofDigitChars 10 l 0) h
  simpa [Nat.ofDigitChars_ten_toDigits] using this

theorem decNat_ne_nil (a : Nat) : decNat a ≠ [] := Nat.toDigits_ne_nil

theorem decNat_digit (a : Nat) (c : Char) (h : c ∈ decNat a) : c.isDigit = true :=
  Nat.isDigit_of_mem_toDigits (by norm_num) (by norm_num) h

theorem decInt_inj (a b : Int) (h : decInt a = decInt b) : a = b := by
  unfold decInt at h
  have key : ∀ x y : Nat, '-' :: decNat x ≠ decNat y := by
    intro x y e
    have : '-' ∈ decNat y := by rw [← e]; simp
    exact absurd (decNat_digit y _ this) (by decide)
  split_ifs at h with h1 h2 h2
  · injection h with _ h
    have := decNat_inj _ _ h
    omega
  · exact absurd h (key _ _)
  · exact absurd h.symm (key _ _)
  · have := decNat_inj _ _ h
    omega

/-- A component that names a file: not empty, without slash, not beginning with a dot. -/
def Plain (d : Name) : Prop := '/' ∉ d ∧ d ≠ [] ∧ d.head? ≠ some '.'

theorem plain_of_digits (d : Name) (h : d ≠ []) (hd : ∀ c ∈ d, c.isDigit = true ∨ c = '-') :
    Plain d := by
  refine ⟨?_, h, ?_⟩
  · intro hs
    rcases hd _ hs with e | e
    · exact absurd e (by decide)
    · exact absurd e (by decide)
  · cases d with
    | nil => exact absurd rfl h
    | cons a t =>
      intro e
      injection e with e
      subst e
      rcases hd '.' (by simp) with e | e
      · exact absurd e (by decide)
      · exact absurd e (by decide)

theorem decInt_chars (d : Int) : ∀ c ∈ decInt d, c.isDigit = true ∨ c = '-' := by
  intro c hc
  unfold decInt at hc
  split_ifs at hc
  · rcases List.mem_cons.1 hc with e | e
    · exact Or.inr e
    · exact Or.inl (decNat_digit _ _ e)
  · exact Or.inl (decNat_digit _ _ hc)

theorem plain_decInt (d : Int) : Plain (decInt d) := by
  refine plain_of_digits _ ?_ (decInt_chars d)
  unfold decInt
  split_ifs
  · simp
  · exact decNat_ne_nil _

/-! ### Extension (C55) -/

/-- **C55** The name always ends with the extension. -/
theorem addExt_suffix (fname ext : Name) : ext <:+ addExt fname ext := by
  unfold addExt
  split_ifs with h
  · exact h
  · exact ⟨fname ++ ['.'], by simp⟩

/-- **C55** The extension is not added twice. -/
theorem addExt_idem (fname ext : Name) : addExt (addExt fname ext) ext = addExt fname ext := by
  have h := addExt_suffix fname ext
  generalize addExt fname ext = a at *
  unfold addExt
  rw [if_pos h]

/-- **C55** A name with the extension is left alone. -/
theorem addExt_present (fname ext : Name) : addExt (fname ++ '.' :: ext) ext = fname ++ '.' :: ext := by
  unfold addExt
  rw [if_pos ⟨fname ++ ['.'], by simp⟩]

/-- **C55** (refuted) A base name that happens to end with the letters of the extension gets none. -/
theorem addExt_missing : addExt "datatiff".toList "tiff".toList = "datatiff".toList := by decide

theorem suffix_component (a d ext : Name) (he : '/' ∉ ext) :
    ext <:+ a ++ '/' :: d ↔ ext <:+ d := by
  constructor
  · intro h
    have hd : d <:+ a ++ '/' :: d := ⟨a ++ ['/'], by simp⟩
    rcases le_total ext.length d.length with hl | hl
    · exact List.suffix_of_suffix_length_le h hd hl
    · have h2 : ('/' :: d) <:+ a ++ '/' :: d := ⟨a, rfl⟩
      rcases Nat.lt_or_ge d.length ext.length with hl' | hl'
      · have h3 := List.suffix_of_suffix_length_le h2 h (by simpa using hl')
        exact absurd (h3.subset (by simp)) he
      · exact List.suffix_of_suffix_length_le h hd hl'
  · intro h
    exact h.trans ⟨a ++ ['/'], by simp⟩

theorem addExt_component (a d ext : Name) (he : '/' ∉ ext) :
    addExt (a ++ '/' :: d) ext = a ++ '/' :: addExt d ext := by
  unfold addExt
  by_cases h : ext <:+ d
  · rw [if_pos h, if_pos ((suffix_component a d ext he).2 h)]
  · rw [if_neg h, if_neg (fun h' => h ((suffix_component a d ext he).1 h'))]
    simp

theorem plain_addExt (d ext : Name) (hd : Plain d) (he : '/' ∉ ext) : Plain (addExt d ext) := by
  obtain ⟨h1, h2, h3⟩ := hd
  unfold addExt
  split_ifs
  · exact ⟨h1, h2, h3⟩
  · refine ⟨by simp [h1, he], by simp, ?_⟩
    cases d with
    | nil => exact absurd rfl h2
    | cons a t => simpa using h3

/-! ### Paths -/

theorem splitSlash_ne (a : Name) : splitSlash a ≠ [] := by
  cases a with
  | nil => simp [splitSlash]
  | cons c cs =>
    unfold splitSlash
    split_ifs
    · simp
    · split <;> simp

theorem splitSlash_append (a b : Name) :
    splitSlash (a ++ '/' :: b) = splitSlash a ++ splitSlash b := by
  induction a with
  | nil => simp [splitSlash]
  | cons c cs ih =>
    rw [List.cons_append, splitSlash, splitSlash]
    split_ifs with h
    · rw [ih]; rfl
    · rw [ih]
      cases hc : splitSlash cs with
      | nil => exact absurd hc (splitSlash_ne cs)
      | cons x t => simp

theorem splitSlash_plain (d : Name) (h : '/' ∉ d) : splitSlash d = [d] := by
  induction d with
  | nil => rfl
  | cons c cs ih =>
    have h1 : '/' ∉ cs := fun h' => h (by simp [h'])
    have h2 : c ≠ '/' := fun h' => h (by simp [h'])
    unfold splitSlash
    rw [if_neg h2, ih h1]

theorem normStep_plain (acc : List Name) (d : Name) (h : Plain d) : normStep acc d = acc ++ [d] := by
  obtain ⟨_, h2, h3⟩ := h
  unfold normStep
  rw [if_neg (by
    rintro (e | e)
    · exact h2 e
    · subst e; exact h3 rfl), if_neg (by rintro rfl; exact h3 rfl)]

/-- The path of a plain component is a directory that does not depend on it, then the component. -/
theorem absPath_component (a d : Name) (hd : Plain d) :
    (splitSlash (a ++ '/' :: d)).foldl normStep []
      = (splitSlash a).foldl normStep [] ++ [d] := by
  rw [splitSlash_append, splitSlash_plain d hd.1, List.foldl_append]
  simp [normStep_plain _ _ hd]

theorem join_component (a : Name) (ha : a.head? = some '/') :
    ∃ P, ∀ d, d.head? ≠ some '/' → joinPath a d = P ++ '/' :: d := by
  by_cases h : a.getLast? = some '/'
  · have hne : a ≠ [] := by rintro rfl; cases ha
    refine ⟨a.dropLast, fun d hd => ?_⟩
    unfold joinPath
    rw [if_neg hd, if_pos (Or.inr h)]
    have : a.dropLast ++ ['/'] = a := by
      conv_rhs => rw [← List.dropLast_append_getLast? '/' h]
    rw [← this]
    simp
  · refine ⟨a, fun d hd => ?_⟩
    unfold joinPath
    rw [if_neg hd, if_neg (by
      rintro (e | e)
      · subst e; cases ha
      · exact h e)]

/-- With a plain digit the path is a fixed directory and the digit with its extension. -/
theorem tiffPath_digit (cwd fname : Name) (hc : cwd.head? = some '/') :
    ∃ dir, ∀ d ext, Plain d → '/' ∉ ext →
      tiffPath cwd fname (some d) ext = dir ++ [addExt d ext] := by
  have plainHead : ∀ d : Name, Plain d → d.head? ≠ some '/' := by
    intro d hd e
    cases d with
    | nil => cases e
    | cons x t => injection e with e; subst e; exact hd.1 (by simp)
  obtain ⟨Q, hQ⟩ := join_component cwd hc
  cases fname with
  | nil =>
    refine ⟨(splitSlash Q).foldl normStep [], fun d ext hd he => ?_⟩
    have e1 : withDigit [] (some d) = d := by
      show joinPath [] d = d
      unfold joinPath
      rw [if_neg (plainHead d hd), if_pos (Or.inl rfl)]
      rfl
    have hp := plain_addExt d ext hd he
    unfold tiffPath absPath
    rw [e1, if_neg (plainHead _ hp), hQ _ (plainHead _ hp), absPath_component Q _ hp]
  | cons x t =>
    by_cases hx : x = '/'
    · subst hx
      obtain ⟨P, hP⟩ := join_component ('/' :: t) rfl
      refine ⟨(splitSlash P).foldl normStep [], fun d ext hd he => ?_⟩
      have hp := plain_addExt d ext hd he
      have e1 : withDigit ('/' :: t) (some d) = P ++ '/' :: d := hP d (plainHead d hd)
      unfold tiffPath absPath
      rw [e1, addExt_component P d ext he]
      have hhead : (P ++ '/' :: addExt d ext).head? = some '/' := by
        cases P with
        | nil => rfl
        | cons y P' =>
          have e2 := hP d (plainHead d hd)
          unfold joinPath at e2
          rw [if_neg (plainHead d hd)] at e2
          split_ifs at e2 <;> (simp only [List.cons_append] at e2; injection e2 with e3 _; simp [← e3])
      rw [if_pos hhead, absPath_component P _ hp]
    · -- relative: the directory is joined to the working directory
      have hj : ∃ P, ∀ d, Plain d → joinPath (x :: t) d = P ++ '/' :: d ∧
          ∀ d', (P ++ '/' :: d').head? = (P ++ '/' :: d).head? := by
        by_cases h : (x :: t).getLast? = some '/'
        · refine ⟨(x :: t).dropLast, fun d hd => ⟨?_, ?_⟩⟩
          · unfold joinPath
            rw [if_neg (plainHead d hd), if_pos (Or.inr h)]
            have : (x :: t).dropLast ++ ['/'] = x :: t := by
              conv_rhs => rw [← List.dropLast_append_getLast? '/' h]
            rw [← this]
            simp
          · intro d'
            cases (x :: t).dropLast <;> rfl
        · refine ⟨x :: t, fun d hd => ⟨?_, fun d' => rfl⟩⟩
          unfold joinPath
          rw [if_neg (plainHead d hd), if_neg (by
            rintro (e | e)
            · cases e
            · exact h e)]
      obtain ⟨P, hP⟩ := hj
      refine ⟨(splitSlash (Q ++ '/' :: P)).foldl normStep [], fun d ext hd he => ?_⟩
      have hp := plain_addExt d ext hd he
      obtain ⟨e1, e2⟩ := hP d hd
      have e1' : withDigit (x :: t) (some d) = P ++ '/' :: d := e1
      have hh : (P ++ '/' :: d).head? = some x := by
        rw [← e1]
        unfold joinPath
        rw [if_neg (plainHead d hd)]
        split_ifs <;> rfl
      have hh' : (P ++ '/' :: addExt d ext).head? ≠ some '/' := by
        rw [e2 (addExt d ext), hh]
        intro e
        injection e with e
        exact hx e
      unfold tiffPath absPath
      rw [e1', addExt_component P d ext he, if_neg hh', hQ _ hh']
      have : Q ++ '/' :: (P ++ '/' :: addExt d ext) = (Q ++ '/' :: P) ++ '/' :: addExt d ext := by
        simp
      rw [this, absPath_component (Q ++ '/' :: P) _ hp]

/-- **C55** The name of the file for a whole number is the number with the extension, in a directory
that depends on the base name only. -/
theorem tiff_name (cwd fname : Name) (hc : cwd.head? = some '/') :
    ∃ dir, ∀ d : Int, tiffPath cwd fname (some (decInt d)) "tiff".toList
      = dir ++ [decInt d ++ ".tiff".toList] := by
  obtain ⟨dir, h⟩ := tiffPath_digit cwd fname hc
  refine ⟨dir, fun d => ?_⟩
  rw [h (decInt d) _ (plain_decInt d) (by decide)]
  unfold addExt
  rw [if_neg]
  · rfl
  · intro hs
    have : 't' ∈ decInt d := hs.subset (by decide)
    rcases decInt_chars d _ this with e | e
    · exact absurd e (by decide)
    · exact absurd e (by decide)

theorem addExt_inj (d d' ext : Name) (h1 : '.' ∉ d) (h2 : '.' ∉ d')
    (h : addExt d ext = addExt d' ext) : d = d' := by
  unfold addExt at h
  split_ifs at h with a b b
  · exact h
  · exact absurd (by rw [h]; simp) h1
  · exact absurd (by rw [← h]; simp) h2
  · exact List.append_cancel_right h

/-- **C55** Different numbers give different files, for every base name and every extension. -/
theorem tiff_distinct (cwd fname ext : Name) (hc : cwd.head? = some '/') (he : '/' ∉ ext) (d d' : Int)
    (h : tiffPath cwd fname (some (decInt d)) ext = tiffPath cwd fname (some (decInt d')) ext) :
    d = d' := by
  obtain ⟨dir, hd⟩ := tiffPath_digit cwd fname hc
  rw [hd _ _ (plain_decInt d) he, hd _ _ (plain_decInt d') he] at h
  have h' : addExt (decInt d) ext = addExt (decInt d') ext := by
    simpa using List.append_cancel_left h
  have nodot : ∀ d : Int, '.' ∉ decInt d := by
    intro d hm
    rcases decInt_chars d _ hm with e | e
    · exact absurd e (by decide)
    · exact absurd e (by decide)
  exact decInt_inj _ _ (addExt_inj _ _ _ (nodot d) (nodot d') h')

/-- Example: a relative base name with a redundant component. -/
example : tiffPath "/home/u".toList "tmp/../data".toList (some (decInt (-12))) "tiff".toList
    = ["home".toList, "u".toList, "data".toList, "-12.tiff".toList] := by decide

/-! ### write_center (C48) -/

variable {K : Type} [Field K] [LinearOrder K] [IsStrictOrderedRing K] [FloorRing K]

theorem roundEven_near (x : K) (hx : 0 ≤ x) : |(roundEven x : K) - x| ≤ 1 / 2 := by
  have h1 := Nat.floor_le hx
  have h2 := Nat.lt_floor_add_one x
  unfold roundEven
  dsimp only
  rw [abs_le]
  split_ifs with a b c <;> push_cast <;> constructor <;> linarith

theorem digitChar_inj : ∀ a < 10, ∀ b < 10, Nat.digitChar a = Nat.digitChar b → a = b := by decide

theorem digitChar_digit : ∀ a < 10, (Nat.digitChar a).isDigit = true := by decide

/-- The two-decimals name determines sign and rounded value. -/
theorem fmt2_inj (c d : K) (h : fmt2 c = fmt2 d) :
    (c < 0 ↔ d < 0) ∧ roundEven (100 * |c|) = roundEven (100 * |d|) := by
  unfold fmt2 at h
  dsimp only at h
  generalize roundEven (100 * |c|) = n at h
  generalize roundEven (100 * |d|) = m at h
  have body : ∀ n m : Nat, decNat (n / 100) ++ ['.', Nat.digitChar (n % 100 / 10), Nat.digitChar (n % 10)]
      = decNat (m / 100) ++ ['.', Nat.digitChar (m % 100 / 10), Nat.digitChar (m % 10)] → n = m := by
    intro n m e
    obtain ⟨e1, e2⟩ := List.append_inj' e rfl
    have f1 := decNat_inj _ _ e1
    injection e2 with _ e2
    injection e2 with e3 e2
    injection e2 with e4 _
    have f2 := digitChar_inj _ (by omega) _ (by omega) e3
    have f3 := digitChar_inj _ (by omega) _ (by omega) e4
    omega
  have sign : ∀ (n : Nat) (t t' : Name), '-' :: t ≠ decNat n ++ t' := by
    intro n t t' e
    have hne := decNat_ne_nil n
    cases hd : decNat n with
    | nil => exact hne hd
    | cons a l =>
      rw [hd] at e
      injection e with e _
      have := decNat_digit n a (by rw [hd]; simp)
      rw [← e] at this
      exact absurd this (by decide)
  split_ifs at h with h1 h2 h2
  · injection h with _ h
    exact ⟨by simp [h1, h2], body _ _ h⟩
  · exact absurd h (sign _ _ _)
  · exact absurd h.symm (sign _ _ _)
  · exact ⟨by simp [h1, h2], body _ _ h⟩

/-- Centres more than 1/100 apart have different names. -/
theorem fmt2_distinct (c d : K) (hcd : 1 / 100 < d - c) : fmt2 c ≠ fmt2 d := by
  intro h
  obtain ⟨hs, hr⟩ := fmt2_inj c d h
  have n1 := abs_le.1 (roundEven_near (100 * |c|) (by positivity))
  have n2 := abs_le.1 (roundEven_near (100 * |d|) (by positivity))
  rw [hr] at n1
  generalize roundEven (100 * |d|) = r at *
  by_cases hc : c < 0
  · have hd := hs.1 hc
    rw [abs_of_neg hc] at n1
    rw [abs_of_neg hd] at n2
    linarith [n1.1, n1.2, n2.1, n2.2]
  · have hd : ¬ d < 0 := fun h' => hc (hs.2 h')
    rw [abs_of_nonneg (not_lt.1 hc)] at n1
    rw [abs_of_nonneg (not_lt.1 hd)] at n2
    linarith [n1.1, n1.2, n2.1, n2.2]

theorem fmt2_chars (c : K) : ∀ x ∈ fmt2 c, x.isDigit = true ∨ x = '-' ∨ x = '.' := by
  have body : ∀ n : Nat, ∀ x ∈ decNat (n / 100) ++
      ['.', Nat.digitChar (n % 100 / 10), Nat.digitChar (n % 10)],
      x.isDigit = true ∨ x = '-' ∨ x = '.' := by
    intro n x hx
    rw [List.mem_append] at hx
    rcases hx with hx | hx
    · exact Or.inl (decNat_digit _ _ hx)
    · simp only [List.mem_cons, List.not_mem_nil, or_false] at hx
      rcases hx with rfl | rfl | rfl
      · exact Or.inr (Or.inr rfl)
      · exact Or.inl (digitChar_digit _ (by omega))
      · exact Or.inl (digitChar_digit _ (by omega))
  intro x hx
  unfold fmt2 at hx
  dsimp only at hx
  split_ifs at hx
  · rcases List.mem_cons.1 hx with e | e
    · exact Or.inr (Or.inl e)
    · exact body _ _ e
  · exact body _ _ hx

theorem plain_fmt2 (c : K) : Plain (fmt2 c) := by
  refine ⟨?_, ?_, ?_⟩
  · intro h
    rcases fmt2_chars c _ h with e | e | e <;> exact absurd e (by decide)
  · unfold fmt2
    dsimp only
    split_ifs <;> simp
  · unfold fmt2
    dsimp only
    split_ifs
    · simp
    · generalize roundEven (100 * |c|) = n
      intro e
      have hne := decNat_ne_nil (n / 100)
      cases hd : decNat (n / 100) with
      | nil => exact hne hd
      | cons a l =>
        rw [hd] at e
        injection e with e
        have := decNat_digit (n / 100) a (by rw [hd]; simp)
        rw [e] at this
        exact absurd this (by decide)

/-- **C48** The file of a centre is the centre with two decimals and the extension, in a directory
that does not depend on it. -/
theorem center_name (cwd dpath : Name) (hc : cwd.head? = some '/') :
    ∃ dir, ∀ c : K, tiffPath cwd dpath (some (fmt2 c)) "tiff".toList
      = dir ++ [fmt2 c ++ ".tiff".toList] := by
  obtain ⟨dir, h⟩ := tiffPath_digit cwd dpath hc
  refine ⟨dir, fun c => ?_⟩
  rw [h (fmt2 c) _ (plain_fmt2 c) (by decide)]
  unfold addExt
  rw [if_neg]
  · rfl
  · intro hs
    have : 't' ∈ fmt2 c := hs.subset (by decide)
    rcases fmt2_chars c _ this with e | e | e <;> exact absurd e (by decide)

theorem save_fold_other {α : Type} (path : Nat → List Name) (rec : Nat → α) (l : List Nat) (s : Store α)
    (q : List Name) (hq : ∀ m ∈ l, path m ≠ q) :
    l.foldl (fun s m => save s (path m) (rec m)) s q = s q := by
  induction l generalizing s with
  | nil => rfl
  | cons a l ih =>
    rw [List.foldl_cons, ih _ fun m hm => hq m (by simp [hm])]
    unfold save
    rw [if_neg (fun e => hq a (by simp) e.symm)]

theorem save_fold {α : Type} (path : Nat → List Name) (rec : Nat → α) (n : Nat) (s : Store α)
    (hinj : ∀ i < n, ∀ j < n, path i = path j → i = j) (m : Nat) (hm : m < n) :
    (List.range n).foldl (fun s m => save s (path m) (rec m)) s (path m) = some (rec m) := by
  induction n with
  | zero => omega
  | succ n ih =>
    rw [List.range_succ, List.foldl_append]
    show save _ (path n) (rec n) (path m) = some (rec m)
    unfold save
    by_cases h : path m = path n
    · have := hinj m hm n (by omega) h
      subst this
      rw [if_pos rfl]
    · rw [if_neg h]
      refine ih (fun i hi j hj => hinj i (by omega) j (by omega)) ?_
      rcases Nat.lt_succ_iff_lt_or_eq.1 hm with h' | h'
      · exact h'
      · subst h'; exact absurd rfl h

/-- **C48** With a step above 1/100 every tried centre has its own file, and it holds the image of
that centre; for every range, folder and previous contents. -/
theorem write_center_files_partial {α : Type} (cwd dpath : Name) (hc : cwd.head? = some '/')
    (dx : Nat) (range : Option (K × K × K)) (hstep : ∀ a b s, range = some (a, b, s) → 1 / 100 < s)
    (rec : Nat → α) (s : Store α) :
    (∀ (i j : Nat) (c d : K), (centers dx range)[i]? = some c → (centers dx range)[j]? = some d →
      tiffPath cwd dpath (some (fmt2 c)) "tiff".toList
        = tiffPath cwd dpath (some (fmt2 d)) "tiff".toList → i = j) ∧
    ∀ (m : Nat) (c : K), (centers dx range)[m]? = some c →
      writeCenters cwd dpath (centers dx range) rec s
        (tiffPath cwd dpath (some (fmt2 c)) "tiff".toList) = some (rec m) := by
  obtain ⟨a, b, st, hst, hcs⟩ : ∃ a b st : K, 1 / 100 < st ∧
      centers dx range = Center.arange a b st := by
    cases range with
    | none => exact ⟨_, _, _, by norm_num, rfl⟩
    | some r => obtain ⟨a, b, st⟩ := r; exact ⟨a, b, st, hstep a b st rfl, rfl⟩
  rw [hcs]
  obtain ⟨dir, hdir⟩ := center_name (K := K) cwd dpath hc
  have hget : ∀ (m : Nat) (c : K), (Center.arange a b st)[m]? = some c → c = a + m * st := by
    intro m c h
    unfold Center.arange at h
    rw [List.getElem?_map, Option.map_eq_some_iff] at h
    obtain ⟨i, hi, rfl⟩ := h
    rw [List.getElem?_range] at hi
    · injection hi with hi; rw [hi]
    · by_contra hge
      rw [List.getElem?_eq_none (by simpa using hge)] at hi
      cases hi
  have step : ∀ i j : Nat, i < j → ∀ c d : K, (Center.arange a b st)[i]? = some c →
      (Center.arange a b st)[j]? = some d →
      tiffPath cwd dpath (some (fmt2 c)) "tiff".toList
        ≠ tiffPath cwd dpath (some (fmt2 d)) "tiff".toList := by
    intro i j hij c d h1 h2 e
    rw [hdir, hdir] at e
    have e' : fmt2 c = fmt2 d := by
      have := List.append_cancel_left e
      injection this with this _
      exact List.append_cancel_right this
    refine fmt2_distinct c d ?_ e'
    rw [hget i c h1, hget j d h2]
    have h3 : (i : K) + 1 ≤ j := by exact_mod_cast hij
    have h4 : (0 : K) < st := by
      have : (0 : K) < 1 / 100 := by norm_num
      linarith
    have h5 : ((i : K) + 1) * st ≤ j * st := mul_le_mul_of_nonneg_right h3 h4.le
    linarith
  have inj : ∀ (i j : Nat) (c d : K), (Center.arange a b st)[i]? = some c → (Center.arange a b st)[j]? = some d →
      tiffPath cwd dpath (some (fmt2 c)) "tiff".toList
        = tiffPath cwd dpath (some (fmt2 d)) "tiff".toList → i = j := by
    intro i j c d h1 h2 e
    rcases Nat.lt_trichotomy i j with h | h | h
    · exact absurd e (step i j h c d h1 h2)
    · exact h
    · exact absurd e.symm (step j i h d c h2 h1)
  refine ⟨inj, ?_⟩
  intro m c hm
  have hlen : m < (Center.arange a b st).length := (List.getElem?_eq_some_iff.1 hm).1
  have key := save_fold (fun m => tiffPath cwd dpath (((Center.arange a b st)[m]?).map fmt2)
    ['t', 'i', 'f', 'f']) rec (Center.arange a b st).length s (by
      intro i hi j hj e
      obtain ⟨c1, h1⟩ : ∃ c1, (Center.arange a b st)[i]? = some c1 :=
        ⟨_, List.getElem?_eq_getElem hi⟩
      obtain ⟨c2, h2⟩ : ∃ c2, (Center.arange a b st)[j]? = some c2 :=
        ⟨_, List.getElem?_eq_getElem hj⟩
      simp only [h1, h2, Option.map_some] at e
      exact inj i j c1 c2 h1 h2 e) m hlen
  simp only [hm, Option.map_some] at key
  exact key

/-- The default range: twenty centres half a pixel apart. -/
example : (centers (K := ℚ) 9 none).length = 20 ∧ fmt2 ((9 : ℚ) / 2 - 5) = "-0.50".toList := by
  decide +kernel

/-- **C48** (refuted) With a step of 1/256 the second image replaces the first. -/
theorem write_center_overwrites (rec : Nat → Nat) (s : Store Nat) :
    (centers (K := ℚ) 64 (some (32, 32 + 1 / 200, 1 / 256))) = [32, 32 + 1 / 256] ∧
    fmt2 (32 : ℚ) = "32.00".toList ∧ fmt2 (32 + 1 / 256 : ℚ) = "32.00".toList ∧
    writeCenters "/".toList "c".toList (centers (K := ℚ) 64 (some (32, 32 + 1 / 200, 1 / 256))) rec s
      (tiffPath "/".toList "c".toList (some (fmt2 (32 : ℚ))) "tiff".toList) = some (rec 1) := by
  have h1 : (centers (K := ℚ) 64 (some (32, 32 + 1 / 200, 1 / 256))) = [32, 32 + 1 / 256] := by
    decide +kernel
  have h2 : fmt2 (32 : ℚ) = "32.00".toList := by decide +kernel
  have h3 : fmt2 (32 + 1 / 256 : ℚ) = "32.00".toList := by decide +kernel
  refine ⟨h1, h2, h3, ?_⟩
  rw [h1, h2]
  show save _ (tiffPath "/".toList "c".toList (some (fmt2 (32 + 1 / 256 : ℚ))) ['t', 'i', 'f', 'f'])
    (rec 1) _ = _
  rw [h3]
  unfold save
  exact if_pos rfl

end Tomopy.Files
