import Verif.Base
import Mathlib.Data.Int.ModEq
import Mathlib.Data.List.Basic

/-!
# Calls of the C library

Each Python function `c_...` of `source/tomopy/util/extern` converts its arguments one by one and
calls a C function by position, without `argtypes`: nothing but the order of the arguments connects
a Python value with a C parameter.  A wrapper is modelled by the list of what it converts, read from
the Python file; a C function by its list of parameters, read from the C file that defines it.
-/

set_option linter.unusedSectionVars false

namespace Tomopy.Extern

/-- Values that reach the wrappers (`source/tomopy/util/extern/recon.py:86-612`).  An array is
known by a number and its shape; its elements are the matter of `Verif.Dtype.PtrModel`. -/
inductive PyVal (F : Type) where
  | int (z : Int) | float (x : F) | str (s : String) | none | arr (id : Nat) (shape : List Nat)

/-- Types of C parameters (prototypes in `include/libtomo/recon.h:52-107`, `project.h:52-63`,
`accel.h`, `gridrec.h`, `morph.h`, `stripe.h`, `remove_ring.h`, `median_filt3d.h`, `inpainter.h`);
`const` is dropped. -/
inductive CTy where
  | int | float | floatP | intP | boolP | u16P | charP
  deriving DecidableEq, Repr

/-- What a C function finds in a parameter (`source/libtomo/recon/art.c:49-50` and the other
definitions). `ptr t a` is the address of the elements of array `a`, taken to be of type `t`. -/
inductive CVal (F : Type) where
  | int (z : Int) | float (x : F) | ptr (t : CTy) (id : Nat) | chars (s : String)

/-- The type a value was made for (`source/tomopy/util/dtype.py:121-168`). -/
def CVal.ty {F : Type} : CVal F → CTy
  | .int _ => .int
  | .float _ => .float
  | .ptr t _ => t
  | .chars _ => .charP

/-- `ctypes.c_int(z)` keeps the low 32 bits and does not check for overflow
(`source/tomopy/util/dtype.py:141-142`). -/
def wrap32 (z : Int) : Int := (z + 2 ^ 31) % 2 ^ 32 - 2 ^ 31

/-- `as_c_int`, `as_c_float`, `as_c_float_p`, `as_c_int_p`, `as_c_bool_p`, `as_c_uint16_p`,
`as_c_char_p` (`source/tomopy/util/dtype.py:121-162`).  `c_int` of a float or string and `c_float`
of a string raise `TypeError`; only arrays have `.ctypes` and only strings `.encode`
(`AttributeError`).  Simplifications: exact floats; `bool` is an `int`; arrays of one element are
not taken for numbers; the copy `as_c_int_p` makes of arrays of another type is the array. -/
def conv {F : Type} (ofInt : Int → F) : CTy → PyVal F → Except PyErr (CVal F)
  | .int, .int z => .ok (.int (wrap32 z))
  | .int, _ => .error .type
  | .float, .int z => .ok (.float (ofInt z))
  | .float, .float x => .ok (.float x)
  | .float, _ => .error .type
  | .charP, .str s => .ok (.chars s)
  | .charP, _ => .error .attribute
  | t, .arr a _ => .ok (.ptr t a)
  | _, _ => .error .attribute

/-- What a wrapper passes (`source/tomopy/util/extern/recon.py:200-211`): a local name (argument or
dimension) or an entry of `kwargs`. -/
inductive Src where
  | loc (name : String) | kw (name : String)
  deriving DecidableEq, Repr

/-- `dy, dt, dx = tomo.shape`; with `two`, shapes of length two give `dy = 1`
(`source/tomopy/util/extern/recon.py:193-198`; without in `prep.py:71,87`). -/
structure Unpack where
  arr : String
  two : Bool
  n0 : String
  n1 : String
  n2 : String
  deriving DecidableEq

/-- A wrapper (`source/tomopy/util/extern/recon.py:192-211` and the others): the C function, the
shapes it takes apart, whether it sets `kwargs['num_block'] = 1` and `kwargs['ind_block'] =
np.arange(1)` (lines 271-272), and the converted arguments in order. -/
structure Wrapper where
  fn : String
  unpacks : List Unpack
  oneBlock : Bool
  args : List (CTy × Src)
  deriving DecidableEq

/-- A Python name space: local variables or `kwargs`
(`source/tomopy/util/extern/recon.py:192-211`). -/
abbrev Env (F : Type) := String → Option (PyVal F)

/-- Assignment of a name (`source/tomopy/util/extern/recon.py:195-198`). -/
def Env.set {F : Type} (e : Env F) (n : String) (v : PyVal F) : Env F :=
  fun m => if m = n then some v else e m

/-- Taking a shape apart (`source/tomopy/util/extern/recon.py:193-198`): `ValueError` unless the
number of dimensions fits, `AttributeError` for values without a shape. -/
def Unpack.run {F : Type} (u : Unpack) (loc : Env F) : Except PyErr (Env F) :=
  match loc u.arr with
  | some (.arr _ [a, b]) =>
    if u.two then .ok (((loc.set u.n0 (.int 1)).set u.n1 (.int a)).set u.n2 (.int b))
    else .error .value
  | some (.arr _ [a, b, c]) =>
    .ok (((loc.set u.n0 (.int a)).set u.n1 (.int b)).set u.n2 (.int c))
  | some (.arr _ _) => .error .value
  | some _ => .error .attribute
  | none => .error .name

/-- The array `np.arange(1, dtype='int32')` (`source/tomopy/util/extern/recon.py:271`): a number no
array of the caller has. -/
def arange1 : Nat := 0

/-- `kwargs` as the call sees it (`source/tomopy/util/extern/recon.py:271-272`).  The dictionary
belongs to the wrapper: `**kwargs` is a copy of that of the caller. -/
def kwOf {F : Type} (w : Wrapper) (kw : Env F) : Env F :=
  if w.oneBlock then (kw.set "ind_block" (.arr arange1 [1])).set "num_block" (.int 1) else kw

/-- The value of an argument expression: `KeyError` for a missing entry of `kwargs`
(`source/tomopy/util/extern/recon.py:209`), `NameError` for a missing name. -/
def Src.eval {F : Type} (loc kw : Env F) : Src → Except PyErr (PyVal F)
  | .loc n => match loc n with | some v => .ok v | none => .error .name
  | .kw n => match kw n with | some v => .ok v | none => .error .key

/-- A call of a wrapper up to the entry of the C function
(`source/tomopy/util/extern/recon.py:193-211`): what is passed, in order. -/
def Wrapper.run {F : Type} (ofInt : Int → F) (w : Wrapper) (loc kw : Env F) :
    Except PyErr (List (CVal F)) := do
  let l ← w.unpacks.foldlM (fun l u => u.run l) loc
  w.args.mapM fun a => do
    let v ← a.2.eval l (kwOf w kw)
    conv ofInt a.1 v

/-- Parameters of a C function (`source/libtomo/recon/art.c:49-50` and the other definitions). -/
abbrev Proto := List (CTy × String)

/-- Entry of a C function by position: what parameter `c` holds, if number and types of the
arguments are those of the definition, otherwise undefined behaviour
(`source/libtomo/recon/art.c:49-50`; the call has no `argtypes`). -/
def enter {F : Type} (p : Proto) (vs : List (CVal F)) : Option (String → Option (CVal F)) :=
  if p.map Prod.fst = vs.map CVal.ty then
    some fun c => ((p.map Prod.snd).zip vs).lookup c
  else none

/-- `c_art` (`source/tomopy/util/extern/recon.py:192-211`). -/
def cArt : Wrapper where
  fn := "art"
  unpacks := [⟨"tomo", true, "dy", "dt", "dx"⟩]
  oneBlock := false
  args := [
    (.floatP, .loc "tomo"), (.int, .loc "dy"), (.int, .loc "dt"), (.int, .loc "dx"),
     (.floatP, .loc "center"), (.floatP, .loc "theta"), (.floatP, .loc "recon"),
     (.int, .kw "num_gridx"), (.int, .kw "num_gridy"), (.int, .kw "num_iter")]

/-- `c_bart` (`source/tomopy/util/extern/recon.py:214-235`). -/
def cBart : Wrapper where
  fn := "bart"
  unpacks := [⟨"tomo", true, "dy", "dt", "dx"⟩]
  oneBlock := false
  args := [
    (.floatP, .loc "tomo"), (.int, .loc "dy"), (.int, .loc "dt"), (.int, .loc "dx"),
     (.floatP, .loc "center"), (.floatP, .loc "theta"), (.floatP, .loc "recon"),
     (.int, .kw "num_gridx"), (.int, .kw "num_gridy"), (.int, .kw "num_iter"),
     (.int, .kw "num_block"), (.intP, .kw "ind_block")]

/-- `c_fbp` (`source/tomopy/util/extern/recon.py:238-258`). -/
def cFbp : Wrapper where
  fn := "fbp"
  unpacks := [⟨"tomo", true, "dy", "dt", "dx"⟩]
  oneBlock := false
  args := [
    (.floatP, .loc "tomo"), (.int, .loc "dy"), (.int, .loc "dt"), (.int, .loc "dx"),
     (.floatP, .loc "center"), (.floatP, .loc "theta"), (.floatP, .loc "recon"),
     (.int, .kw "num_gridx"), (.int, .kw "num_gridy"), (.charP, .kw "filter_name"),
     (.floatP, .kw "filter_par")]

/-- `c_mlem` (`source/tomopy/util/extern/recon.py:261-291` without `accelerated`). -/
def cMlem : Wrapper where
  fn := "osem"
  unpacks := [⟨"tomo", true, "dy", "dt", "dx"⟩]
  oneBlock := true
  args := [
    (.floatP, .loc "tomo"), (.int, .loc "dy"), (.int, .loc "dt"), (.int, .loc "dx"),
     (.floatP, .loc "center"), (.floatP, .loc "theta"), (.floatP, .loc "recon"),
     (.int, .kw "num_gridx"), (.int, .kw "num_gridy"), (.int, .kw "num_iter"),
     (.int, .kw "num_block"), (.intP, .kw "ind_block")]

/-- `c_osem` (`source/tomopy/util/extern/recon.py:294-315`). -/
def cOsem : Wrapper where
  fn := "osem"
  unpacks := [⟨"tomo", true, "dy", "dt", "dx"⟩]
  oneBlock := false
  args := [
    (.floatP, .loc "tomo"), (.int, .loc "dy"), (.int, .loc "dt"), (.int, .loc "dx"),
     (.floatP, .loc "center"), (.floatP, .loc "theta"), (.floatP, .loc "recon"),
     (.int, .kw "num_gridx"), (.int, .kw "num_gridy"), (.int, .kw "num_iter"),
     (.int, .kw "num_block"), (.intP, .kw "ind_block")]

/-- `c_ospml_hybrid` (`source/tomopy/util/extern/recon.py:318-341`). -/
def cOspmlHybrid : Wrapper where
  fn := "ospml_hybrid"
  unpacks := [⟨"tomo", true, "dy", "dt", "dx"⟩]
  oneBlock := false
  args := [
    (.floatP, .loc "tomo"), (.int, .loc "dy"), (.int, .loc "dt"), (.int, .loc "dx"),
     (.floatP, .loc "center"), (.floatP, .loc "theta"), (.floatP, .loc "recon"),
     (.int, .kw "num_gridx"), (.int, .kw "num_gridy"), (.int, .kw "num_iter"),
     (.floatP, .kw "reg_par"), (.int, .kw "num_block"), (.intP, .kw "ind_block")]

/-- `c_ospml_quad` (`source/tomopy/util/extern/recon.py:344-366`). -/
def cOspmlQuad : Wrapper where
  fn := "ospml_quad"
  unpacks := [⟨"tomo", true, "dy", "dt", "dx"⟩]
  oneBlock := false
  args := [
    (.floatP, .loc "tomo"), (.int, .loc "dy"), (.int, .loc "dt"), (.int, .loc "dx"),
     (.floatP, .loc "center"), (.floatP, .loc "theta"), (.floatP, .loc "recon"),
     (.int, .kw "num_gridx"), (.int, .kw "num_gridy"), (.int, .kw "num_iter"),
     (.floatP, .kw "reg_par"), (.int, .kw "num_block"), (.intP, .kw "ind_block")]

/-- `c_pml_hybrid` (`source/tomopy/util/extern/recon.py:369-395`). -/
def cPmlHybrid : Wrapper where
  fn := "ospml_hybrid"
  unpacks := [⟨"tomo", true, "dy", "dt", "dx"⟩]
  oneBlock := true
  args := [
    (.floatP, .loc "tomo"), (.int, .loc "dy"), (.int, .loc "dt"), (.int, .loc "dx"),
     (.floatP, .loc "center"), (.floatP, .loc "theta"), (.floatP, .loc "recon"),
     (.int, .kw "num_gridx"), (.int, .kw "num_gridy"), (.int, .kw "num_iter"),
     (.floatP, .kw "reg_par"), (.int, .kw "num_block"), (.intP, .kw "ind_block")]

/-- `c_pml_quad` (`source/tomopy/util/extern/recon.py:398-423`). -/
def cPmlQuad : Wrapper where
  fn := "ospml_quad"
  unpacks := [⟨"tomo", true, "dy", "dt", "dx"⟩]
  oneBlock := true
  args := [
    (.floatP, .loc "tomo"), (.int, .loc "dy"), (.int, .loc "dt"), (.int, .loc "dx"),
     (.floatP, .loc "center"), (.floatP, .loc "theta"), (.floatP, .loc "recon"),
     (.int, .kw "num_gridx"), (.int, .kw "num_gridy"), (.int, .kw "num_iter"),
     (.floatP, .kw "reg_par"), (.int, .kw "num_block"), (.intP, .kw "ind_block")]

/-- `c_sirt` (`source/tomopy/util/extern/recon.py:426-455` without `accelerated`). -/
def cSirt : Wrapper where
  fn := "bart"
  unpacks := [⟨"tomo", true, "dy", "dt", "dx"⟩]
  oneBlock := true
  args := [
    (.floatP, .loc "tomo"), (.int, .loc "dy"), (.int, .loc "dt"), (.int, .loc "dx"),
     (.floatP, .loc "center"), (.floatP, .loc "theta"), (.floatP, .loc "recon"),
     (.int, .kw "num_gridx"), (.int, .kw "num_gridy"), (.int, .kw "num_iter"),
     (.int, .kw "num_block"), (.intP, .kw "ind_block")]

/-- `c_tv` (`source/tomopy/util/extern/recon.py:457-477`). -/
def cTv : Wrapper where
  fn := "tv"
  unpacks := [⟨"tomo", true, "dy", "dt", "dx"⟩]
  oneBlock := false
  args := [
    (.floatP, .loc "tomo"), (.int, .loc "dy"), (.int, .loc "dt"), (.int, .loc "dx"),
     (.floatP, .loc "center"), (.floatP, .loc "theta"), (.floatP, .loc "recon"),
     (.int, .kw "num_gridx"), (.int, .kw "num_gridy"), (.int, .kw "num_iter"),
     (.floatP, .kw "reg_par")]

/-- `c_grad` (`source/tomopy/util/extern/recon.py:480-500`). -/
def cGrad : Wrapper where
  fn := "grad"
  unpacks := [⟨"tomo", true, "dy", "dt", "dx"⟩]
  oneBlock := false
  args := [
    (.floatP, .loc "tomo"), (.int, .loc "dy"), (.int, .loc "dt"), (.int, .loc "dx"),
     (.floatP, .loc "center"), (.floatP, .loc "theta"), (.floatP, .loc "recon"),
     (.int, .kw "num_gridx"), (.int, .kw "num_gridy"), (.int, .kw "num_iter"),
     (.floatP, .kw "reg_par")]

/-- `c_tikh` (`source/tomopy/util/extern/recon.py:503-524`). -/
def cTikh : Wrapper where
  fn := "tikh"
  unpacks := [⟨"tomo", true, "dy", "dt", "dx"⟩]
  oneBlock := false
  args := [
    (.floatP, .loc "tomo"), (.int, .loc "dy"), (.int, .loc "dt"), (.int, .loc "dx"),
     (.floatP, .loc "center"), (.floatP, .loc "theta"), (.floatP, .loc "recon"),
     (.int, .kw "num_gridx"), (.int, .kw "num_gridy"), (.int, .kw "num_iter"),
     (.floatP, .kw "reg_data"), (.floatP, .kw "reg_par")]

/-- `c_vector` (`source/tomopy/util/extern/recon.py:527-547`). -/
def cVector : Wrapper where
  fn := "vector"
  unpacks := [⟨"tomo", true, "dy", "dt", "dx"⟩]
  oneBlock := false
  args := [
    (.floatP, .loc "tomo"), (.int, .loc "dy"), (.int, .loc "dt"), (.int, .loc "dx"),
     (.floatP, .loc "center"), (.floatP, .loc "theta"), (.floatP, .loc "recon1"),
     (.floatP, .loc "recon2"), (.int, .kw "num_gridx"), (.int, .kw "num_gridy"),
     (.int, .kw "num_iter")]

/-- `c_vector2` (`source/tomopy/util/extern/recon.py:550-577`). -/
def cVector2 : Wrapper where
  fn := "vector2"
  unpacks := [⟨"tomo1", true, "dy", "dt", "dx"⟩]
  oneBlock := false
  args := [
    (.floatP, .loc "tomo1"), (.floatP, .loc "tomo2"), (.int, .loc "dy"), (.int, .loc "dt"),
     (.int, .loc "dx"), (.floatP, .loc "center1"), (.floatP, .loc "center2"),
     (.floatP, .loc "theta1"), (.floatP, .loc "theta2"), (.floatP, .loc "recon1"),
     (.floatP, .loc "recon2"), (.floatP, .loc "recon3"), (.int, .kw "num_gridx"),
     (.int, .kw "num_gridy"), (.int, .kw "num_iter"), (.int, .loc "axis1"),
     (.int, .loc "axis2")]

/-- `c_vector3` (`source/tomopy/util/extern/recon.py:580-612`). -/
def cVector3 : Wrapper where
  fn := "vector3"
  unpacks := [⟨"tomo1", true, "dy", "dt", "dx"⟩]
  oneBlock := false
  args := [
    (.floatP, .loc "tomo1"), (.floatP, .loc "tomo2"), (.floatP, .loc "tomo3"),
     (.int, .loc "dy"), (.int, .loc "dt"), (.int, .loc "dx"), (.floatP, .loc "center1"),
     (.floatP, .loc "center2"), (.floatP, .loc "center3"), (.floatP, .loc "theta1"),
     (.floatP, .loc "theta2"), (.floatP, .loc "theta3"), (.floatP, .loc "recon1"),
     (.floatP, .loc "recon2"), (.floatP, .loc "recon3"), (.int, .kw "num_gridx"),
     (.int, .kw "num_gridy"), (.int, .kw "num_iter"), (.int, .loc "axis1"),
     (.int, .loc "axis2"), (.int, .loc "axis3")]

/-- `c_project` (`source/tomopy/util/extern/recon.py:86-117`). -/
def cProject : Wrapper where
  fn := "project"
  unpacks := [⟨"obj", true, "oy", "ox", "oz"⟩, ⟨"tomo", true, "dy", "dt", "dx"⟩]
  oneBlock := false
  args := [
    (.floatP, .loc "obj"), (.int, .loc "oy"), (.int, .loc "ox"), (.int, .loc "oz"),
     (.floatP, .loc "tomo"), (.int, .loc "dy"), (.int, .loc "dt"), (.int, .loc "dx"),
     (.floatP, .loc "center"), (.floatP, .loc "theta")]

/-- `c_project2` (`source/tomopy/util/extern/recon.py:120-152`). -/
def cProject2 : Wrapper where
  fn := "project2"
  unpacks := [⟨"objx", true, "oy", "ox", "oz"⟩, ⟨"tomo", true, "dy", "dt", "dx"⟩]
  oneBlock := false
  args := [
    (.floatP, .loc "objx"), (.floatP, .loc "objy"), (.int, .loc "oy"), (.int, .loc "ox"),
     (.int, .loc "oz"), (.floatP, .loc "tomo"), (.int, .loc "dy"), (.int, .loc "dt"),
     (.int, .loc "dx"), (.floatP, .loc "center"), (.floatP, .loc "theta")]

/-- `c_project3` (`source/tomopy/util/extern/recon.py:155-189`). -/
def cProject3 : Wrapper where
  fn := "project3"
  unpacks := [⟨"objx", true, "oy", "ox", "oz"⟩, ⟨"tomo", true, "dy", "dt", "dx"⟩]
  oneBlock := false
  args := [
    (.floatP, .loc "objx"), (.floatP, .loc "objy"), (.floatP, .loc "objz"), (.int, .loc "oy"),
     (.int, .loc "ox"), (.int, .loc "oz"), (.floatP, .loc "tomo"), (.int, .loc "dy"),
     (.int, .loc "dt"), (.int, .loc "dx"), (.floatP, .loc "center"), (.floatP, .loc "theta"),
     (.int, .loc "axis")]

/-- `c_accel_mlem` (`source/tomopy/util/extern/accel.py:66-94`). -/
def cAccelMlem : Wrapper where
  fn := "cxx_mlem"
  unpacks := [⟨"tomo", true, "dy", "dt", "dx"⟩]
  oneBlock := false
  args := [
    (.floatP, .loc "tomo"), (.int, .loc "dy"), (.int, .loc "dt"), (.int, .loc "dx"),
     (.floatP, .loc "center"), (.floatP, .loc "theta"), (.floatP, .loc "recon"),
     (.int, .kw "num_gridx"), (.int, .kw "num_gridy"), (.int, .kw "num_iter"),
     (.int, .kw "pool_size"), (.charP, .kw "interpolation"), (.charP, .kw "device"),
     (.intP, .kw "grid_size"), (.intP, .kw "block_size")]

/-- `c_accel_sirt` (`source/tomopy/util/extern/accel.py:97-125`). -/
def cAccelSirt : Wrapper where
  fn := "cxx_sirt"
  unpacks := [⟨"tomo", true, "dy", "dt", "dx"⟩]
  oneBlock := false
  args := [
    (.floatP, .loc "tomo"), (.int, .loc "dy"), (.int, .loc "dt"), (.int, .loc "dx"),
     (.floatP, .loc "center"), (.floatP, .loc "theta"), (.floatP, .loc "recon"),
     (.int, .kw "num_gridx"), (.int, .kw "num_gridy"), (.int, .kw "num_iter"),
     (.int, .kw "pool_size"), (.charP, .kw "interpolation"), (.charP, .kw "device"),
     (.intP, .kw "grid_size"), (.intP, .kw "block_size")]

/-- `c_gridrec` (`source/tomopy/util/extern/gridrec.py:64-85`). -/
def cGridrec : Wrapper where
  fn := "gridrec"
  unpacks := [⟨"tomo", true, "dy", "dt", "dx"⟩]
  oneBlock := false
  args := [
    (.floatP, .loc "tomo"), (.int, .loc "dy"), (.int, .loc "dt"), (.int, .loc "dx"),
     (.floatP, .loc "center"), (.floatP, .loc "theta"), (.floatP, .loc "recon"),
     (.int, .kw "num_gridx"), (.int, .kw "num_gridy"), (.charP, .kw "filter_name"),
     (.floatP, .kw "filter_par")]

/-- `c_sample` (`source/tomopy/util/extern/misc.py:69-90`). -/
def cSample : Wrapper where
  fn := "sample"
  unpacks := []
  oneBlock := false
  args := [
    (.int, .loc "mode"), (.floatP, .loc "arr"), (.int, .loc "dx"), (.int, .loc "dy"),
     (.int, .loc "dz"), (.int, .loc "level"), (.int, .loc "axis"), (.floatP, .loc "out")]

/-- `c_median_filt3d_float32` (`source/tomopy/util/extern/misc.py:115-136`). -/
def cMedianFloat : Wrapper where
  fn := "medianfilter_main_float"
  unpacks := []
  oneBlock := false
  args := [
    (.floatP, .loc "input"), (.floatP, .loc "output"), (.int, .loc "kernel_half_size"),
     (.float, .loc "absdif"), (.int, .loc "ncore"), (.int, .loc "dx"), (.int, .loc "dy"),
     (.int, .loc "dz")]

/-- `c_median_filt3d_uint16` (`source/tomopy/util/extern/misc.py:139-160`). -/
def cMedianUint16 : Wrapper where
  fn := "medianfilter_main_uint16"
  unpacks := []
  oneBlock := false
  args := [
    (.u16P, .loc "input"), (.u16P, .loc "output"), (.int, .loc "kernel_half_size"),
     (.float, .loc "absdif"), (.int, .loc "ncore"), (.int, .loc "dx"), (.int, .loc "dy"),
     (.int, .loc "dz")]

/-- `c_inpainter` (`source/tomopy/util/extern/misc.py:163-188`). -/
def cInpainter : Wrapper where
  fn := "Inpainter_morph_main"
  unpacks := []
  oneBlock := false
  args := [
    (.floatP, .loc "input"), (.boolP, .loc "mask"), (.floatP, .loc "output"),
     (.int, .loc "iterations"), (.int, .loc "kernel_half_size"), (.int, .loc "method_type"),
     (.int, .loc "ncore"), (.int, .loc "dx"), (.int, .loc "dy"), (.int, .loc "dz")]

/-- `c_normalize_bg` (`source/tomopy/util/extern/prep.py:70-79`). -/
def cNormalizeBg : Wrapper where
  fn := "normalize_bg"
  unpacks := [⟨"tomo", false, "dt", "dy", "dx"⟩]
  oneBlock := false
  args := [
    (.floatP, .loc "tomo"), (.int, .loc "dt"), (.int, .loc "dy"), (.int, .loc "dx"),
     (.int, .loc "air")]

/-- `c_stripes_detect3d` (`source/tomopy/util/extern/prep.py:102-123`). -/
def cStripesDetect : Wrapper where
  fn := "stripesdetect3d_main_float"
  unpacks := []
  oneBlock := false
  args := [
    (.floatP, .loc "input"), (.floatP, .loc "output"), (.int, .loc "size"),
     (.int, .loc "radius"), (.int, .loc "ncore"), (.int, .loc "dx"), (.int, .loc "dy"),
     (.int, .loc "dz")]

/-- `c_stripesmask3d` (`source/tomopy/util/extern/prep.py:125-152`). -/
def cStripesMask : Wrapper where
  fn := "stripesmask3d_main_float"
  unpacks := []
  oneBlock := false
  args := [
    (.floatP, .loc "input"), (.boolP, .loc "output"), (.float, .loc "threshold_val"),
     (.int, .loc "min_stripe_length"), (.int, .loc "min_stripe_depth"),
     (.int, .loc "min_stripe_width"), (.float, .loc "sensitivity_perc"), (.int, .loc "ncore"),
     (.int, .loc "dx"), (.int, .loc "dy"), (.int, .loc "dz")]

/-- All wrappers above (`source/tomopy/util/extern/recon.py`, `accel.py`, `gridrec.py`, `misc.py`,
`prep.py`).  Not included: `c_remove_ring` and `c_remove_stripe_sf`. -/
def wrappers : List Wrapper := [
  cArt, cBart, cFbp, cMlem, cOsem, cOspmlHybrid, cOspmlQuad, cPmlHybrid, cPmlQuad, cSirt, cTv,
   cGrad, cTikh, cVector, cVector2, cVector3, cProject, cProject2, cProject3, cAccelMlem,
   cAccelSirt, cGridrec, cSample, cMedianFloat, cMedianUint16, cInpainter, cNormalizeBg,
   cStripesDetect, cStripesMask]

/-- The parameters of the C functions, from their definitions:
`source/libtomo/recon/art.c:49-50`,
`source/libtomo/recon/bart.c:49-51`,
`source/libtomo/recon/fbp.c:48-49`,
`source/libtomo/recon/osem.c:50-52`,
`source/libtomo/recon/ospml_hybrid.c:48-50`,
`source/libtomo/recon/ospml_quad.c:48-50`,
`source/libtomo/recon/tv.c:49-50`,
`source/libtomo/recon/grad.c:49-50`,
`source/libtomo/recon/tikh.c:49-50`,
`source/libtomo/recon/vector.c:49-50`,
`source/libtomo/recon/vector.c:205-208`,
`source/libtomo/recon/vector.c:474-478`,
`source/libtomo/recon/project.c:51-52`,
`source/libtomo/recon/project.c:141-142`,
`source/libtomo/recon/project.c:245-247`,
`source/libtomo/accel/cxx/mlem.cc:68-71`,
`source/libtomo/accel/cxx/sirt.cc:67-70`,
`source/libtomo/gridrec/gridrec.c:195-197`,
`source/libtomo/misc/morph.c:196-197`,
`source/libtomo/misc/median_filt3d.c:283-284`,
`source/libtomo/misc/median_filt3d.c:343-344`,
`source/libtomo/misc/inpainter.c:527-529`,
`source/libtomo/prep/prep.c:47`,
`source/libtomo/prep/stripes_detect3d.c:487-488`,
`source/libtomo/prep/stripes_detect3d.c:579-582`. -/
def proto : String → Proto
  | "art" => [
    (.floatP, "data"), (.int, "dy"), (.int, "dt"), (.int, "dx"), (.floatP, "center"),
     (.floatP, "theta"), (.floatP, "recon"), (.int, "ngridx"), (.int, "ngridy"),
     (.int, "num_iter")]
  | "bart" => [
    (.floatP, "data"), (.int, "dy"), (.int, "dt"), (.int, "dx"), (.floatP, "center"),
     (.floatP, "theta"), (.floatP, "recon"), (.int, "ngridx"), (.int, "ngridy"),
     (.int, "num_iter"), (.int, "num_block"), (.intP, "ind_block")]
  | "fbp" => [
    (.floatP, "data"), (.int, "dy"), (.int, "dt"), (.int, "dx"), (.floatP, "center"),
     (.floatP, "theta"), (.floatP, "recon"), (.int, "ngridx"), (.int, "ngridy"),
     (.charP, "fname"), (.floatP, "filter_par")]
  | "osem" => [
    (.floatP, "data"), (.int, "dy"), (.int, "dt"), (.int, "dx"), (.floatP, "center"),
     (.floatP, "theta"), (.floatP, "recon"), (.int, "ngridx"), (.int, "ngridy"),
     (.int, "num_iter"), (.int, "num_block"), (.intP, "ind_block")]
  | "ospml_hybrid" => [
    (.floatP, "data"), (.int, "dy"), (.int, "dt"), (.int, "dx"), (.floatP, "center"),
     (.floatP, "theta"), (.floatP, "recon"), (.int, "ngridx"), (.int, "ngridy"),
     (.int, "num_iter"), (.floatP, "reg_pars"), (.int, "num_block"), (.intP, "ind_block")]
  | "ospml_quad" => [
    (.floatP, "data"), (.int, "dy"), (.int, "dt"), (.int, "dx"), (.floatP, "center"),
     (.floatP, "theta"), (.floatP, "recon"), (.int, "ngridx"), (.int, "ngridy"),
     (.int, "num_iter"), (.floatP, "reg_pars"), (.int, "num_block"), (.intP, "ind_block")]
  | "tv" => [
    (.floatP, "data"), (.int, "dy"), (.int, "dt"), (.int, "dx"), (.floatP, "center"),
     (.floatP, "theta"), (.floatP, "recon"), (.int, "ngridx"), (.int, "ngridy"),
     (.int, "num_iter"), (.floatP, "reg_pars")]
  | "grad" => [
    (.floatP, "data"), (.int, "dy"), (.int, "dt"), (.int, "dx"), (.floatP, "center"),
     (.floatP, "theta"), (.floatP, "recon"), (.int, "ngridx"), (.int, "ngridy"),
     (.int, "num_iter"), (.floatP, "reg_pars")]
  | "tikh" => [
    (.floatP, "data"), (.int, "dy"), (.int, "dt"), (.int, "dx"), (.floatP, "center"),
     (.floatP, "theta"), (.floatP, "recon"), (.int, "ngridx"), (.int, "ngridy"),
     (.int, "num_iter"), (.floatP, "reg_data"), (.floatP, "reg_pars")]
  | "vector" => [
    (.floatP, "data"), (.int, "dy"), (.int, "dt"), (.int, "dx"), (.floatP, "center"),
     (.floatP, "theta"), (.floatP, "recon1"), (.floatP, "recon2"), (.int, "ngridx"),
     (.int, "ngridy"), (.int, "num_iter")]
  | "vector2" => [
    (.floatP, "data1"), (.floatP, "data2"), (.int, "dy"), (.int, "dt"), (.int, "dx"),
     (.floatP, "center1"), (.floatP, "center2"), (.floatP, "theta1"), (.floatP, "theta2"),
     (.floatP, "recon1"), (.floatP, "recon2"), (.floatP, "recon3"), (.int, "ngridx"),
     (.int, "ngridy"), (.int, "num_iter"), (.int, "axis1"), (.int, "axis2")]
  | "vector3" => [
    (.floatP, "data1"), (.floatP, "data2"), (.floatP, "data3"), (.int, "dy"), (.int, "dt"),
     (.int, "dx"), (.floatP, "center1"), (.floatP, "center2"), (.floatP, "center3"),
     (.floatP, "theta1"), (.floatP, "theta2"), (.floatP, "theta3"), (.floatP, "recon1"),
     (.floatP, "recon2"), (.floatP, "recon3"), (.int, "ngridx"), (.int, "ngridy"),
     (.int, "num_iter"), (.int, "axis1"), (.int, "axis2"), (.int, "axis3")]
  | "project" => [
    (.floatP, "obj"), (.int, "oy"), (.int, "ox"), (.int, "oz"), (.floatP, "data"),
     (.int, "dy"), (.int, "dt"), (.int, "dx"), (.floatP, "center"), (.floatP, "theta")]
  | "project2" => [
    (.floatP, "objx"), (.floatP, "objy"), (.int, "oy"), (.int, "ox"), (.int, "oz"),
     (.floatP, "data"), (.int, "dy"), (.int, "dt"), (.int, "dx"), (.floatP, "center"),
     (.floatP, "theta")]
  | "project3" => [
    (.floatP, "objx"), (.floatP, "objy"), (.floatP, "objz"), (.int, "oy"), (.int, "ox"),
     (.int, "oz"), (.floatP, "data"), (.int, "dy"), (.int, "dt"), (.int, "dx"),
     (.floatP, "center"), (.floatP, "theta"), (.int, "axis")]
  | "cxx_mlem" => [
    (.floatP, "data"), (.int, "dy"), (.int, "dt"), (.int, "dx"), (.floatP, "center"),
     (.floatP, "theta"), (.floatP, "recon"), (.int, "ngridx"), (.int, "ngridy"),
     (.int, "num_iter"), (.int, "pool_size"), (.charP, "interp"), (.charP, "device"),
     (.intP, "grid_size"), (.intP, "block_size")]
  | "cxx_sirt" => [
    (.floatP, "data"), (.int, "dy"), (.int, "dt"), (.int, "dx"), (.floatP, "center"),
     (.floatP, "theta"), (.floatP, "recon"), (.int, "ngridx"), (.int, "ngridy"),
     (.int, "num_iter"), (.int, "pool_size"), (.charP, "interp"), (.charP, "device"),
     (.intP, "grid_size"), (.intP, "block_size")]
  | "gridrec" => [
    (.floatP, "data"), (.int, "dy"), (.int, "dt"), (.int, "dx"), (.floatP, "center"),
     (.floatP, "theta"), (.floatP, "recon"), (.int, "ngridx"), (.int, "ngridy"),
     (.charP, "fname"), (.floatP, "filter_par")]
  | "sample" => [
    (.int, "mode"), (.floatP, "data"), (.int, "dx"), (.int, "dy"), (.int, "dz"),
     (.int, "level"), (.int, "axis"), (.floatP, "out")]
  | "medianfilter_main_float" => [
    (.floatP, "Input"), (.floatP, "Output"), (.int, "radius"), (.float, "mu_threshold"),
     (.int, "ncores"), (.int, "dimX"), (.int, "dimY"), (.int, "dimZ")]
  | "medianfilter_main_uint16" => [
    (.u16P, "Input"), (.u16P, "Output"), (.int, "radius"), (.float, "mu_threshold"),
     (.int, "ncores"), (.int, "dimX"), (.int, "dimY"), (.int, "dimZ")]
  | "Inpainter_morph_main" => [
    (.floatP, "Input"), (.boolP, "Mask"), (.floatP, "Output"), (.int, "iterations"),
     (.int, "W_halfsize"), (.int, "method_type"), (.int, "ncores"), (.int, "dimX"),
     (.int, "dimY"), (.int, "dimZ")]
  | "normalize_bg" => [
    (.floatP, "data"), (.int, "dx"), (.int, "dy"), (.int, "dz"), (.int, "nair")]
  | "stripesdetect3d_main_float" => [
    (.floatP, "Input"), (.floatP, "Output"), (.int, "window_halflength_vertical"),
     (.int, "ratio_radius"), (.int, "ncores"), (.int, "dimX"), (.int, "dimY"), (.int, "dimZ")]
  | "stripesmask3d_main_float" => [
    (.floatP, "Input"), (.boolP, "Output"), (.float, "threshold_val"),
     (.int, "stripe_length_min"), (.int, "stripe_depth_min"), (.int, "stripe_width_min"),
     (.float, "sensitivity"), (.int, "ncores"), (.int, "dimX"), (.int, "dimY"), (.int, "dimZ")]
  | _ => []

end Tomopy.Extern
