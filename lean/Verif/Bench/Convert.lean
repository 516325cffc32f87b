import Verif.Base

/-! C195: `convert_image` of source/tomopy/misc/benchmark.py. -/
set_option linter.unusedSectionVars false

namespace Tomopy.Bench

/-! ### Model -/

/-- A file: the format it is encoded in and its picture (misc/benchmark.py:113-116). -/
structure ImgFile (P : Type) where
  format : String
  pic : P

/-- The files of the directory by name (misc/benchmark.py:114, 116). -/
abbrev Dir (P : Type) := String → Option (ImgFile P)

/-- `"{}.{}".format(fname, ext)` (misc/benchmark.py:113, 128). -/
def withExt (fname ext : String) : String := fname ++ ("." ++ ext)

/-- misc/benchmark.py:95-129 `convert_image`: the files afterwards and the list returned.  `pil`: PIL
is installed; `rgb` is `convert("RGB")` with the loss of JPEG.  The only exceptions are a missing PIL
and a missing file; a file PIL cannot decode and a failing `save` are not modelled, and neither is what
is printed. -/
def convertImage {P : Type} (pil : Bool) (rgb : P → P) (fs : Dir P) (fname cur new : String) :
    Dir P × (String × Bool × String) :=
  match (if pil then fs (withExt fname cur) else none) with            -- 112-114
  | some img =>
    let fs' : Dir P := fun q => if q = fname then some ⟨"jpeg", rgb img.pic⟩ else fs q  -- 116
    (fs', withExt fname new, true, new)                                -- 128-129
  | none => (fs, withExt fname cur, false, cur)                        -- 119-126

/-! ### Theorems -/

theorem withExt_ne (fname ext : String) : withExt fname ext ≠ fname := by
  intro h
  have h1 := congrArg String.length h
  unfold withExt at h1
  rw [String.length_append, String.length_append] at h1
  have h2 : ".".length = 1 := by decide
  omega

/-- **C195** (refuted part) The file the returned name stands for is the one that was there before, or
missing: a call never creates or changes it. -/
theorem convert_returned_untouched {P : Type} (pil : Bool) (rgb : P → P) (fs : Dir P)
    (fname cur new : String) :
    (convertImage pil rgb fs fname cur new).1 (convertImage pil rgb fs fname cur new).2.1
      = fs (convertImage pil rgb fs fname cur new).2.1 := by
  unfold convertImage
  split
  · dsimp only
    rw [if_neg (withExt_ne fname new)]
  · rfl

/-- **C195** (refuted part) A call that reports success has written the picture under the name without
extension, as JPEG whatever the new format is. -/
theorem convert_writes_partial {P : Type} (pil : Bool) (rgb : P → P) (fs : Dir P)
    (fname cur new : String) :
    (convertImage pil rgb fs fname cur new).2.2.1 = true ↔
      pil = true ∧ ∃ img, fs (withExt fname cur) = some img ∧
        (convertImage pil rgb fs fname cur new).1 fname = some ⟨"jpeg", rgb img.pic⟩ ∧
        (∀ q, q ≠ fname → (convertImage pil rgb fs fname cur new).1 q = fs q) ∧
        (convertImage pil rgb fs fname cur new).2 = (withExt fname new, true, new) := by
  unfold convertImage
  cases pil with
  | false => simp
  | true =>
    simp only [if_true, true_and]
    cases h : fs (withExt fname cur) with
    | none => simp
    | some img =>
      refine ⟨fun _ => ⟨img, rfl, ?_, fun q hq => ?_, rfl⟩, fun _ => rfl⟩
      · dsimp only
        rw [if_pos rfl]
      · dsimp only
        rw [if_neg hq]

/-- **C195** A call that reports failure changes no file and returns the name and the format it was
given. -/
theorem convert_failure {P : Type} (pil : Bool) (rgb : P → P) (fs : Dir P) (fname cur new : String)
    (h : (convertImage pil rgb fs fname cur new).2.2.1 = false) :
    (convertImage pil rgb fs fname cur new).1 = fs ∧
    (convertImage pil rgb fs fname cur new).2 = (withExt fname cur, false, cur) ∧
    (pil = false ∨ fs (withExt fname cur) = none) := by
  unfold convertImage at h ⊢
  cases pil with
  | false => exact ⟨rfl, rfl, Or.inl rfl⟩
  | true =>
    simp only [if_true] at h ⊢
    cases hf : fs (withExt fname cur) with
    | none => exact ⟨rfl, rfl, Or.inr rfl⟩
    | some img =>
      rw [hf] at h
      cases h

/-- **C195** The original is kept. -/
theorem convert_keeps {P : Type} (pil : Bool) (rgb : P → P) (fs : Dir P) (fname cur new : String) :
    (convertImage pil rgb fs fname cur new).1 (withExt fname cur) = fs (withExt fname cur) := by
  unfold convertImage
  split
  · dsimp only
    rw [if_neg (withExt_ne fname cur)]
  · rfl

/-- Converting `a.png` to `jpeg` in a directory with only `a.png`: success is reported for `a.jpeg`,
which does not exist. -/
example : (convertImage (P := Nat) true id (fun q => if q = "a.png" then some ⟨"png", 5⟩ else none)
      "a" "png" "jpeg").2 = ("a.jpeg", true, "jpeg") ∧
    ((convertImage (P := Nat) true id (fun q => if q = "a.png" then some ⟨"png", 5⟩ else none)
      "a" "png" "jpeg").1 "a.jpeg").isSome = false := by
  decide

end Tomopy.Bench
