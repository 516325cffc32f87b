import Verif.Center.Model

/-! Model of the file names of source/tomopy/util/misc.py `write_tiff` and
source/tomopy/recon/rotation.py `write_center`.

Simplifications: names are lists of characters; POSIX paths, two leading slashes count as one;
`tifffile.imsave` stores the image under the path; the creation of directories is not modelled;
exact arithmetic for the centres. -/

set_option linter.unusedSectionVars false

namespace Tomopy.Files

/-- A string (source/tomopy/util/misc.py:87-115). -/
abbrev Name := List Char

/-! ### write_tiff -/

/-- `str(n)` for a non-negative number (source/tomopy/util/misc.py:105). -/
def decNat (n : Nat) : Name := Nat.toDigits 10 n

/-- `str(digit)` for a whole number (source/tomopy/util/misc.py:105). -/
def decInt (d : Int) : Name := if d < 0 then '-' :: decNat d.natAbs else decNat d.natAbs

/-- `os.path.join(a, b)` (source/tomopy/util/misc.py:105). -/
def joinPath (a b : Name) : Name :=
  if b.head? = some '/' then b
  else if a = [] ∨ a.getLast? = some '/' then a ++ b
  else a ++ '/' :: b

/-- source/tomopy/util/misc.py:106-107: the extension. -/
def addExt (fname ext : Name) : Name := if ext <:+ fname then fname else fname ++ '.' :: ext

/-- Components of a path (`os.path.abspath`, source/tomopy/util/misc.py:109). -/
def splitSlash : Name → List Name
  | [] => [[]]
  | c :: cs => if c = '/' then [] :: splitSlash cs else
    match splitSlash cs with
    | [] => [[c]]
    | h :: t => (c :: h) :: t

/-- One component of `os.path.normpath` of an absolute path (source/tomopy/util/misc.py:109). -/
def normStep (acc : List Name) (comp : Name) : List Name :=
  if comp = [] ∨ comp = ['.'] then acc
  else if comp = ['.', '.'] then acc.dropLast
  else acc ++ [comp]

/-- `os.path.abspath` (source/tomopy/util/misc.py:109) with working directory `cwd`; the result as components. -/
def absPath (cwd fname : Name) : List Name :=
  (splitSlash (if fname.head? = some '/' then fname else joinPath cwd fname)).foldl normStep []

/-- source/tomopy/util/misc.py:104-105: the digit is appended as a component. -/
def withDigit (fname : Name) : Option Name → Name
  | none => fname
  | some d => joinPath fname d

/-- source/tomopy/util/misc.py:87-115 `write_tiff`: the path that is written. -/
def tiffPath (cwd fname : Name) (digit : Option Name) (ext : Name) : List Name :=
  absPath cwd (addExt (withDigit fname digit) ext)

/-- Files by path (source/tomopy/util/misc.py:115). -/
abbrev Store (α : Type) := List Name → Option α

/-- source/tomopy/util/misc.py:115 `tifffile.imsave`: the file is replaced. -/
def save {α : Type} (s : Store α) (path : List Name) (img : α) : Store α := fun q =>
  if q = path then some img else s q

/-! ### write_center -/

variable {K : Type} [Field K] [LinearOrder K] [IsStrictOrderedRing K] [FloorRing K]

/-- Rounding to the nearest whole number, ties to even (`format`, rotation.py:578). -/
def roundEven (x : K) : Nat :=
  let f := ⌊x⌋₊
  if x - f < 1 / 2 then f else if 1 / 2 < x - f then f + 1 else if f % 2 = 0 then f else f + 1

/-- `'{0:.2f}'.format(c)` (rotation.py:578). -/
def fmt2 (c : K) : Name :=
  let n := roundEven (100 * |c|)
  let s := decNat (n / 100) ++ ['.', Nat.digitChar (n % 100 / 10), Nat.digitChar (n % 10)]
  if c < 0 then '-' :: s else s

/-- rotation.py:547-550: the centres that are tried. -/
def centers (dx : Nat) : Option (K × K × K) → List K
  | none => Center.arange ((dx : K) / 2 - 5) ((dx : K) / 2 + 5) (1 / 2)
  | some (a, b, s) => Center.arange a b s

/-- rotation.py:577-578: the images are written one after the other; `dpath` is absolute here
(line 574). -/
def writeCenters {α : Type} (cwd dpath : Name) (cs : List K) (rec : Nat → α) (s : Store α) :
    Store α :=
  (List.range cs.length).foldl (fun s m =>
    save s (tiffPath cwd dpath ((cs[m]?).map fmt2) ['t', 'i', 'f', 'f']) (rec m)) s

end Tomopy.Files
