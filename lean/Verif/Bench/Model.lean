import Verif.Base
import Verif.Files.Model
import Mathlib.Algebra.Order.Field.Basic

/-! Model of the image helpers in source/tomopy/misc/benchmark.py.

Simplifications: exact arithmetic; arrays without NaN; the messages printed and the saving of the
files (`pylab.imsave`) are not modelled, a saved file is its name and the numbers of the images it
shows. -/
set_option linter.unusedSectionVars false

namespace Tomopy.Bench
open Tomopy.Files

section Norm
variable {K : Type} [Field K] [LinearOrder K]

/-- misc/benchmark.py:135-149 `normalize` on the flattened array.  Every exception inside is caught
and the input returned (147-149): `amin` of an empty array, and for integer arrays
(`isFloat = false`) the division in place. -/
def normalize (isFloat : Bool) (rec : List K) : List K :=
  match rec.min? with
  | none => rec                                                        -- 139: ValueError
  | some mn =>
    let l := rec.map (· - mn)                                          -- 140
    match l.max? with
    | none => rec
    | some mx =>
      if 0 < mx then                                                   -- 142
        if isFloat then l.map fun x => x / (1 / 2 * mx) - 1            -- 143-144
        else rec                                                       -- 143: TypeError
      else l.map fun x => x - 1

end Norm

/-- A stack of `n` images of `rows` × `cols` pixels (misc/benchmark.py:152-210); `none` is
uninitialised memory of `np.ndarray`. -/
structure Stack (K : Type) where
  n : Nat
  rows : Nat
  cols : Nat
  val : Nat → Nat → Nat → Option K

variable {K : Type}

/-- Number of elements of `x[b:e]` for `len(x) = n`, `0 ≤ b ≤ e` (misc/benchmark.py:178, 204). -/
def sliceLen (n b e : Nat) : Nat := min e n - min b n

/-- misc/benchmark.py:152-184 `trim_border`, `drow` and `dcol` not negative.  Exceptions inside the
`try` (negative size, missing image, slices of different size) return the input (180-182);
`rec[0]` of an empty stack is outside (167). -/
def trimBorder (rec : Stack K) (nimages drow dcol : Nat) : Except PyErr (Stack K) :=
  if rec.n = 0 then .error .index else
    let nrows := rec.rows - drow
    let ncols := rec.cols - dcol
    let xb := drow / 2                                                 -- 173
    let yb := dcol / 2
    if rec.rows < drow ∨ rec.cols < dcol ∨ rec.n < nimages ∨
        (nimages ≠ 0 ∧ (sliceLen rec.rows xb (xb + nrows) ≠ nrows ∨
          sliceLen rec.cols yb (yb + ncols) ≠ ncols)) then .ok rec
    else .ok ⟨nimages, nrows, ncols, fun i x y => rec.val i (xb + x) (yb + y)⟩

/-- misc/benchmark.py:187-210 `fill_border`, `drow` and `dcol` not negative. -/
def fillBorder (rec : Stack K) (nimages drow dcol : Nat) : Except PyErr (Stack K) :=
  if rec.n = 0 then .error .index else
    let nrows := rec.rows + drow
    let ncols := rec.cols + dcol
    let xb := drow / 2                                                 -- 200
    let yb := dcol / 2
    if rec.n < nimages ∨ (nimages ≠ 0 ∧ (sliceLen nrows xb (xb + rec.rows) ≠ rec.rows ∨
        sliceLen ncols yb (yb + rec.cols) ≠ rec.cols)) then .ok rec
    else .ok ⟨nimages, nrows, ncols, fun i x y =>
      if xb ≤ x ∧ x < xb + rec.rows ∧ yb ≤ y ∧ y < yb + rec.cols
      then rec.val i (x - xb) (y - yb) else none⟩

/-- Variables of the loop misc/benchmark.py:309-328; a file is its name and the images in it. -/
structure OutState where
  nitr : Nat
  recI : Option (List Nat)
  fname : Name
  files : List (Name × List Nat)

/-- misc/benchmark.py:315-318: the images put side by side so far, and the next one. -/
def append (recI : Option (List Nat)) (i : Nat) : List Nat :=
  match recI with
  | none => [i]
  | some l => l ++ [i]

/-- misc/benchmark.py:309-328, one pass. -/
def outStep (fpath fmt : Name) (n ncol : Nat) (s : OutState) (i : Nat) : OutState :=
  let nitr := s.nitr + 1
  let r := append s.recI i                                             -- 315-318
  if nitr % ncol = 0 ∨ i + 1 = n then                                  -- 320
    ⟨nitr, none, fpath, s.files ++ [(s.fname ++ decNat i ++ '.' :: fmt, r)]⟩
  else ⟨nitr, some r, s.fname ++ decNat i ++ ['_'], s.files⟩           -- 327

/-- misc/benchmark.py:279-330 `output_images` for `n` images; the result of `rescale_image` (297)
is not used by the code, so `scale` has no effect and is left out. -/
def outputImages (fpath fmt : Name) (n ncol : Nat) : Except PyErr (List (Name × List Nat)) :=
  let ncol := if n < ncol then n else ncol                             -- 292-293
  if n = 0 then .error .index                                          -- 300: rec[0]
  else if ncol = 0 then .error .zeroDivision                           -- 320
  else .ok ((List.range n).foldl (outStep fpath fmt n ncol) ⟨0, none, fpath, []⟩).files

end Tomopy.Bench
