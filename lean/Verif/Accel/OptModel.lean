import Verif.Base

/-! Model of the options of the rotation-based reconstructions: choice of device and interpolation,
size of the thread pool, the count of running calls (source/libtomo/accel/common.hh, data.hh,
utils.hh, cxx/sirt.cc), and of source/tomopy/recon/acceleration.py.

Strings are lists of (ASCII) characters. -/

namespace Tomopy.Accel

/-! ### Devices -/

/-- What the library was compiled with (CMake options TOMOPY_USE_OPENCV, TOMOPY_USE_CUDA), and the
number of devices `cuda_device_count()` finds (common.hh:243-265). -/
structure Build where
  opencv : Bool
  cuda : Bool
  devices : Nat

/-- common.hh:115-131 `DeviceOption` (the description is left out). -/
structure Device where
  index : Int
  key : List Char
  deriving DecidableEq

/-- common.hh:244. -/
def cpuDev : Device := ⟨0, "cpu".toList⟩

/-- common.hh:251. -/
def gpuDev : Device := ⟨1, "gpu".toList⟩

/-- common.hh:195-200 `tolower`. -/
def lower (s : List Char) : List Char := s.map Char.toLower

/-- Value of the leading digits of a string (used by `>>` in common.hh:209 and utils.hh:90). -/
def digitsVal : List Char → Nat → Nat
  | [], acc => acc
  | ch :: cs, acc => if ch.isDigit then digitsVal cs (acc * 10 + (ch.toNat - 48)) else acc

/-- common.hh:203-211 `from_string<int>` and utils.hh:89-90: `>>` for `int` skips blanks, takes a
sign and digits; without digits the result is 0, outside of the range of `int` its limits. -/
def readInt (s : List Char) : Int :=
  let clamp (v : Int) : Int := max (-2147483648) (min 2147483647 v)
  match s.dropWhile Char.isWhitespace with
  | '-' :: cs => clamp (-(digitsVal cs 0 : Int))
  | '+' :: cs => clamp (digitsVal cs 0)
  | cs => clamp (digitsVal cs 0)

/-- common.hh:214-228 `is_numeric`: no digit: no; up to two characters: yes; otherwise yes if the
first and the last digit are at different places. -/
def isNumeric (s : List Char) : Bool :=
  decide (0 < (s.filter Char.isDigit).length) &&
    (decide (s.length ≤ 2) || decide (2 ≤ (s.filter Char.isDigit).length))

/-- common.hh:146-150 `operator==` for a device and a string. -/
def Device.matches (d : Device) (s : List Char) : Bool :=
  if isNumeric s then decide (d.index = readInt s) else decide (d.key = lower s)

/-- common.hh:239-265: the list of options. -/
def options (B : Build) : List Device :=
  (if B.opencv then [cpuDev] else []) ++ (if B.cuda && decide (0 < B.devices) then [gpuDev] else [])

/-- common.hh:241, 252: `default_key`. -/
def defaultKey (B : Build) : List Char :=
  if B.cuda && decide (0 < B.devices) then "gpu".toList else "cpu".toList

/-- common.hh:235-349 `GetDevice`; the exception is `std::runtime_error`.  `none` stands for
dereferencing the end iterator (lines 335, 348). -/
def getDevice (B : Build) (pref : List Char) : Except PyErr (Option Device) :=
  if options B = [] then .error .runtime
  else
    match (options B).find? (·.matches (defaultKey B)) with
    | none => .ok none
    | some dflt =>
      match (options B).find? (·.matches pref) with
      | some d => .ok (some d)
      | none => .ok ((options B).find? (·.matches dflt.key))

/-- cxx/sirt.cc:93-107: which code runs (`none`: none, the image is returned unchanged). -/
def dispatch (B : Build) (d : Device) : Option Device :=
  if d.key = "gpu".toList then (if B.cuda then some gpuDev else none)
  else (if B.opencv then some cpuDev else none)

/-! ### Interpolation -/

/-- utils.hh:72-76: upper case. -/
def upper (s : List Char) : List Char := s.map Char.toUpper

/-- utils.hh:68-109 `GetChoice`; `none` stands for `abort()`. -/
def getChoice (choices : List (Int × List Char)) (s : List Char) : Option Int :=
  match choices.find? (fun ch => upper ch.2 == upper s) with
  | some ch => some ch.1
  | none =>
    match choices.find? (fun ch => readInt s == ch.1) with
    | some _ => some (readInt s)
    | none => none

/-- utils.hh:160-169 `GetOpenCVInterpolationMode`, with OpenCV's CV_INTER_NN, CV_INTER_LINEAR and
CV_INTER_CUBIC. -/
def opencvChoices : List (Int × List Char) :=
  [(0, "NN".toList), (1, "LINEAR".toList), (2, "CUBIC".toList)]

/-- utils.hh:260-269 `GetNppInterpolationMode`, with NPPI_INTER_NN, NPPI_INTER_LINEAR and
NPPI_INTER_CUBIC. -/
def nppChoices : List (Int × List Char) :=
  [(1, "NN".toList), (2, "LINEAR".toList), (4, "CUBIC".toList)]

/-! ### Threads and calls -/

/-- data.hh:70 and common.hh:55-78 `CreateThreadPool`: number of threads for the argument
`pool_size`, hardware threads `hw`, TOMOPY_PYTHON_THREADS `py` and TOMOPY_NUM_THREADS `env` (if
set), compiled without CUDA.  The argument is converted to `unsigned int`. -/
def poolSize (arg : Int) (hw : Nat) (py env : Option Nat) : Nat :=
  let p := (arg % 4294967296).toNat
  let p := if p ≤ 0 then max (env.getD (hw / max (py.getD hw) 1)) 1 else p
  max p 1

/-- cxx/sirt.cc:70-125, data.hh:134-179: the counter of running calls after one more call;
`cleanup` is not reached when the reconstruction throws (line 111). -/
def activeAfter (active : Int) (throws : Bool) : Int :=
  let active := active + 1
  if throws then active else active - 1

/-! ### recon/acceleration.py -/

/-- The argument `implementation` (acceleration.py:71). -/
inductive Impl where
  | none
  | str (s : String)
  | fn (f : Nat)
  | other

/-- acceleration.py:64-66 `known_implementations`. -/
def knownImpl : List String := ["tomoperi"]

/-- acceleration.py:177-189 `_search_implementation`: `find_spec` of a top-level package that is not
installed returns `None` and does not raise, so the first key is returned. -/
def searchImpl : Except PyErr String :=
  match knownImpl with
  | k :: _ => .ok k
  | [] => .error .value

/-- acceleration.py:192-203 `_get_func`: the function called (`none`: that of tomopy_peri). -/
def getFunc (installed : Bool) : Impl → Except PyErr (Option Nat)
  | .str "tomoperi" => if installed then .ok none else .error .value
  | .fn f => .ok (some f)
  | _ => .error .type

/-- acceleration.py:149-174: which function `recon_accelerated` calls. -/
def resolve (installed : Bool) : Impl → Except PyErr (Option Nat)
  | .none => match searchImpl with
    | .ok k => getFunc installed (.str k)
    | .error e => .error e
  | .str s => if s ∈ knownImpl then getFunc installed (.str s) else .error .value
  | .fn f => getFunc installed (.fn f)
  | .other => .error .value

end Tomopy.Accel
