import Verif.Base
import Verif.Recon.Model

/-! Importing tomopy: the FFT implementation, the compiled libraries and the functions that call them.

Not modelled: Python packages other than mkl_fft are there (numpy, scipy, …); a library that loads has all its
functions. -/

set_option linter.unusedSectionVars false

namespace Tomopy.Load

/-- The compiled libraries (source/tomopy/util/extern/accel.py:63, recon.py:83, gridrec.py:61, prep.py:67, misc.py:66). -/
inductive Lib
  | accel | recon | gridrec | prep | misc
  deriving DecidableEq, Repr

/-- What `import mkl_fft` does (source/tomopy/_fft_loader.py:68, source/tomopy/util/misc.py:119). -/
inductive Imports
  | fine | importError | otherError
  deriving DecidableEq, Repr

/-- The surroundings of a Python process: whether `find_library` finds a name
(source/tomopy/util/extern/__init__.py:66), whether that loads (:71), `TOMOPY_FFT_IMPL`
(source/tomopy/_fft_loader.py:79-81) and mkl_fft. -/
structure World where
  find : Lib → Bool
  load : Lib → Bool
  env : Option String
  mkl : Imports

/-- What can be raised: ModuleNotFoundError for a library (source/tomopy/util/extern/__init__.py:80-82, 90-94),
ImportError of mkl_fft or another error of it, AttributeError (source/tomopy/recon/algorithm.py:378). -/
inductive Exc
  | missing (l : Lib) | noMkl | otherError | attribute
  deriving DecidableEq, Repr

/-- `c_shared_lib` (source/tomopy/util/extern/__init__.py:55-87): the handle, here the name of the library it belongs
to, and the libraries warned about. -/
def cSharedLib (w : World) (l : Lib) (error : Bool) : Except Exc (Option Lib × List Lib) :=
  let sharedlib := if w.find l then some l else none
  match sharedlib with
  | some s =>
    if w.load s then .ok (some s, [])
    else if error then .error (.missing l) else .ok (none, [l])
  | none => if error then .error (.missing l) else .ok (none, [l])

/-- The handles `LIB_TOMOPY_…` after the import and the warnings. -/
structure Handles where
  handle : Lib → Option Lib
  warned : List Lib

/-- source/tomopy/util/extern/__init__.py:97-101 with extern/recon.py:54-56, which imports the accelerated functions
first: the libraries are loaded in this order. -/
def importExtern (w : World) : Except Exc Handles :=
  match cSharedLib w .accel false with
  | .error e => .error e
  | .ok (a, wa) =>
    match cSharedLib w .recon true with
    | .error e => .error e
    | .ok (r, wr) =>
      match cSharedLib w .gridrec true with
      | .error e => .error e
      | .ok (g, wg) =>
        match cSharedLib w .prep true with
        | .error e => .error e
        | .ok (p, wp) =>
          match cSharedLib w .misc true with
          | .error e => .error e
          | .ok (m, wm) => .ok
            { handle := fun | .accel => a | .recon => r | .gridrec => g | .prep => p | .misc => m
              warned := wa ++ wr ++ wg ++ wp ++ wm }

/-- The FFT implementations (source/tomopy/_fft_loader.py:66-75). -/
inductive Fft
  | mkl | numpy
  deriving DecidableEq, Repr

/-- The name `fft_impl` gets (source/tomopy/_fft_loader.py:69, 75). -/
def Fft.name : Fft → String
  | .mkl => "mkl_fft"
  | .numpy => "numpy.fft"

/-- The import in `import_mkl_fft` and `import_numpy_fft` (source/tomopy/_fft_loader.py:66-75). -/
def importFft (w : World) : Fft → Imports
  | .mkl => w.mkl
  | .numpy => .fine

/-- source/tomopy/_fft_loader.py:84-91: the first option that imports; only ImportError is caught. -/
def tryFft (w : World) : List Fft → String → Except Exc String
  | [], s => .ok s
  | f :: fs, s =>
    match importFft w f with
    | .fine => .ok f.name
    | .importError => tryFft w fs s
    | .otherError => .error .otherError

/-- source/tomopy/_fft_loader.py:63, 78-91: the value of `fft_impl`. -/
def fftLoader (w : World) : Except Exc String :=
  match w.env with
  | some s => .ok s
  | none => tryFft w [.mkl, .numpy] "unset"

/-- source/tomopy/util/misc.py:118-153: which package the transforms call. -/
def importMisc (w : World) (impl : String) : Except Exc Fft :=
  if impl = "mkl_fft" then
    match w.mkl with
    | .fine => .ok .mkl
    | .importError => .error .noMkl
    | .otherError => .error .otherError
  else .ok .numpy

/-- The imported package. -/
structure Session where
  fft : Fft
  libs : Handles

/-- `import tomopy` (source/tomopy/__init__.py:64-79): the FFT loader, then tomopy.misc.corr with util.extern
(source/tomopy/misc/corr.py:56), then tomopy.prep.alignment with util.misc (source/tomopy/prep/alignment.py:59). -/
def importTomopy (w : World) : Except Exc Session :=
  match fftLoader w with
  | .error e => .error e
  | .ok impl =>
    match importExtern w with
    | .error e => .error e
    | .ok h =>
      match importMisc w impl with
      | .error e => .error e
      | .ok f => .ok ⟨f, h⟩

/-- The functions of `tomopy.util.extern` and the library each of them calls (source/tomopy/util/extern/recon.py:62-80,
accel.py:60-61, gridrec.py:58, prep.py:62-65, misc.py:58-64; the accelerated branches are in `call`). -/
def externs : List (String × Lib) :=
  [("c_project", .recon), ("c_project2", .recon), ("c_project3", .recon), ("c_art", .recon), ("c_bart", .recon),
   ("c_fbp", .recon), ("c_mlem", .recon), ("c_osem", .recon), ("c_ospml_hybrid", .recon), ("c_ospml_quad", .recon),
   ("c_pml_hybrid", .recon), ("c_pml_quad", .recon), ("c_sirt", .recon), ("c_tv", .recon), ("c_grad", .recon),
   ("c_tikh", .recon), ("c_vector", .recon), ("c_vector2", .recon), ("c_vector3", .recon),
   ("c_accel_mlem", .accel), ("c_accel_sirt", .accel), ("c_gridrec", .gridrec),
   ("c_normalize_bg", .prep), ("c_remove_stripe_sf", .prep), ("c_stripes_detect3d", .prep), ("c_stripesmask3d", .prep),
   ("c_sample", .misc), ("c_remove_ring", .misc), ("c_median_filt3d_float32", .misc),
   ("c_median_filt3d_uint16", .misc), ("c_inpainter", .misc)]

/-- The library a call of an extern function ends up in; `accelerated` is the keyword of the same name
(source/tomopy/util/extern/recon.py:263-264, 428-429; accel.py:68-69, 99-100).  A handle that is None has no attributes. -/
def call (s : Session) (name : String) (accelerated : Bool) : Except Exc Lib :=
  match externs.lookup name with
  | none => .error .attribute
  | some l =>
    let l' := if accelerated ∧ (name = "c_mlem" ∨ name = "c_sirt") then .accel else l
    match s.libs.handle l' with
    | some h => .ok h
    | none => if l' = .accel then .error (.missing .accel) else .error .attribute

/-- `_get_func` (source/tomopy/recon/algorithm.py:369-380): a name or anything that cannot be added to a string. -/
def getFunc {F : Type} : String ⊕ F → Except Exc (String ⊕ F)
  | .inl a => if (externs.lookup ("c_" ++ a)).isSome then .ok (.inl ("c_" ++ a)) else .error .attribute
  | .inr f => .ok (.inr f)

end Tomopy.Load
