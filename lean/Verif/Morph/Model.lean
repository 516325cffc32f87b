import Verif.Base
import Mathlib.Algebra.Order.Field.Basic
import Mathlib.Analysis.Real.Sqrt

/-! Model of source/tomopy/misc/morph.py and libtomo/misc/morph.c. -/
namespace Tomopy.Morph

/-! ### pad -/

/-- morph.py:103-104 `allowedkwargs`. -/
def padKwargs : String → Option (List String)
  | "constant" => some ["constant_values"]
  | "edge" => some []
  | _ => none

/-- `mode` argument (morph.py:108, 117): a string or something else. -/
inductive PadMode where
  | str (s : String)
  | other

/-- morph.py:108-119: argument checks of `pad`; `kws` are the names of the extra keywords. -/
def padCheck (mode : PadMode) (kws : List String) : Except PyErr String :=
  match mode with
  | .other => .error .value
  | .str s => match padKwargs s with
    | none => .error .value
    | some allowed => if kws.all fun k => allowed.contains k then .ok s else .error .value

/-- morph.py:163-164 `_get_npad`: `int(np.ceil((dim*sqrt(2)-dim)/2))`, exact arithmetic. -/
noncomputable def getNpad (dim : Nat) : Nat := ⌈((dim : ℝ) * Real.sqrt 2 - dim) / 2⌉₊

/-- morph.py:124-160, one line of the array along `axis` (all slices are full along the other
axes): a new uninitialised line is filled by slice assignments.  `cval` is the constant. -/
def padLine {α : Type} (mode : String) (cval : α) (npad : Nat) (l : List α) :
    Except PyErr (List (Option α)) := do
  let n := l.length
  let out : List (Option α) := List.replicate (n + 2 * npad) none                -- 124-125, 135
  let out ← pySetSlice out (some npad) (some (npad + n : Nat)) (l.map some)       -- 140, 169
  if mode = "constant" then
    let out ← pySetSlice out (some 0) (some npad) [some cval]                     -- 144, 171
    pySetSlice out (some (npad + n : Nat)) none [some cval]                       -- 145, 173
  else if mode = "edge" then
    let out ← pySetSlice out (some 0) (some npad) ((pySlice l (some 0) (some 1)).map some)
    pySetSlice out (some (npad + n : Nat)) none
      ((pySlice l (some ((n : Int) - 1)) (some n)).map some)                      -- 149, 177
  else return out

/-- morph.py:73-160 `pad` on one line, after the checks; `npad` given. -/
def pad {α : Type} (mode : PadMode) (kws : List String) (cval : α) (npad : Nat)
    (l : List α) : Except PyErr (List (Option α)) := do
  let m ← padCheck mode kws
  padLine m cval npad l

/-! ### downsample / upsample -/

/-- Output addresses in the order of the loops of morph.c:62-121 (`downsample`), one per
execution of the innermost statement. -/
def downVisits (dx dy dz bin axis : Nat) : List Nat :=
  match axis with
  | 0 => (List.range (dx / bin)).flatMap fun m => (List.range bin).flatMap fun _ =>
      (List.range dy).flatMap fun n => (List.range dz).map fun k => m * (dy * dz) + n * dz + k
  | 1 => (List.range dx).flatMap fun m => (List.range (dy / bin)).flatMap fun n =>
      (List.range bin).flatMap fun _ => (List.range dz).map fun k =>
        m * (dy / bin * dz) + n * dz + k
  | 2 => (List.range dx).flatMap fun m => (List.range dy).flatMap fun n =>
      (List.range (dz / bin)).flatMap fun k => (List.range bin).map fun _ =>
        m * (dy * (dz / bin)) + n * (dz / bin) + k
  | _ => []

/-- morph.c:50-122: `out[a] += data[ind] / binsize; ind++` over the visits, with checked
accesses (`none`: outside an array).  Machine integers do not overflow. -/
def downLoop {K : Type} [Field K] (inSize outSize bin : Nat) (data : Nat → K) :
    List Nat → Nat → (Nat → K) → Option (Nat → K)
  | [], _, out => some out
  | a :: as, ind, out =>
    if ind < inSize ∧ a < outSize then
      downLoop inSize outSize bin data as (ind + 1)
        (fun q => if q = a then out q + data ind / bin else out q)
    else none

/-- Input addresses in the order of the loops of morph.c:136-192 (`upsample`). -/
def upVisits (dx dy dz bin axis : Nat) : List Nat :=
  match axis with
  | 0 => (List.range dx).flatMap fun m => (List.range bin).flatMap fun _ =>
      (List.range dy).flatMap fun n => (List.range dz).map fun k => m * (dy * dz) + n * dz + k
  | 1 => (List.range dx).flatMap fun m => (List.range dy).flatMap fun n =>
      (List.range bin).flatMap fun _ => (List.range dz).map fun k => m * (dy * dz) + n * dz + k
  | 2 => (List.range dx).flatMap fun m => (List.range dy).flatMap fun n =>
      (List.range dz).flatMap fun k => (List.range bin).map fun _ => m * (dy * dz) + n * dz + k
  | _ => []

/-- morph.c:124-193: `out[ind] = data[a]; ind++` over the visits, checked. -/
def upLoop {K : Type} (inSize outSize : Nat) (data : Nat → K) :
    List Nat → Nat → (Nat → K) → Option (Nat → K)
  | [], _, out => some out
  | a :: as, ind, out =>
    if a < inSize ∧ ind < outSize then
      upLoop inSize outSize data as (ind + 1) (fun q => if q = ind then data a else out q)
    else none

/-- Shape with one dimension replaced (morph.py:246-252 `_init_out`). -/
def newShape (dx dy dz : Nat) (axis : Nat) (dim : Nat) : Nat × Nat × Nat :=
  match axis with
  | 0 => (dim, dy, dz)
  | 1 => (dx, dim, dz)
  | _ => (dx, dy, dim)

/-- Length of the axis (morph.py:238 `arr.shape[axis]`), axis 0, 1, 2. -/
def axisLen (dx dy dz axis : Nat) : Nat :=
  match axis with
  | 0 => dx
  | 1 => dy
  | _ => dz

/-- Python axis number to 0..2 for `arr.shape[axis]` (morph.py:238): negative axes count from
the end, others are an `IndexError`. -/
def shapeAxis (axis : Int) : Except PyErr Nat :=
  if 0 ≤ axis ∧ axis ≤ 2 then .ok axis.toNat
  else if -3 ≤ axis ∧ axis < 0 then .ok (axis + 3).toNat
  else .error .index

/-- Result of a sampling call: shape and flat contents (morph.py:243). -/
structure Sampled (K : Type) where
  shape : Nat × Nat × Nat
  get : Nat → K

/-- The `axis` seen by the C code (morph.c:62, 82, 102 compare with 0, 1, 2 only; a negative
axis does nothing). -/
def cAxis (axis : Int) : Nat := if 0 ≤ axis then axis.toNat else 3

/-- morph.py:191-209, 233-243 `downsample` for `level ≥ 0` and non-empty arrays.  The inner
`Option` is `none` if the C code would access memory outside its arrays. -/
def downsample {K : Type} [Field K] (dx dy dz level : Nat) (axis : Int) (data : Nat → K) :
    Except PyErr (Option (Sampled K)) := do
  let ax ← shapeAxis axis
  let bin := 2 ^ level
  let sh := newShape dx dy dz ax (axisLen dx dy dz ax / bin)
  return (downLoop (dx * dy * dz) (sh.1 * sh.2.1 * sh.2.2) bin data
    (downVisits dx dy dz bin (cAxis axis)) 0 (fun _ => 0)).map fun o => ⟨sh, o⟩

/-- morph.py:212-243 `upsample`. -/
def upsample {K : Type} [Field K] (dx dy dz level : Nat) (axis : Int) (data : Nat → K) :
    Except PyErr (Option (Sampled K)) := do
  let ax ← shapeAxis axis
  let bin := 2 ^ level
  let sh := newShape dx dy dz ax (axisLen dx dy dz ax * bin)
  return (upLoop (dx * dy * dz) (sh.1 * sh.2.1 * sh.2.2) data
    (upVisits dx dy dz bin (cAxis axis)) 0 (fun _ => 0)).map fun o => ⟨sh, o⟩

/-! ### sino_360_to_180 -/

section
variable {K : Type} [Field K]

/-- `np.linspace(a, b, n)` (morph.py:344, 349): for `n = 1` it is `[a]`. -/
def linspace (a b : K) (n : Nat) : List K :=
  (List.range n).map fun (j : Nat) => if n = 1 then a else a + (b - a) * ((j : K) / (n - 1 : Nat))

/-- numpy product of two 1D rows with broadcasting (morph.py:347, 352). -/
def mulRows (w l : List K) : Except PyErr (List K) :=
  if w.length = l.length then .ok (List.zipWith (· * ·) w l)
  else match w, l with
    | [c], l => .ok (l.map (c * ·))
    | w, [c] => .ok (w.map (· * c))
    | _, _ => .error .value

/-- numpy sum of two 1D rows of equal length (morph.py:347, 352). -/
def addRows (w l : List K) : Except PyErr (List K) :=
  if w.length = l.length then .ok (List.zipWith (· + ·) w l) else .error .value

/-- morph.py:335-353 `sino_360_to_180` for one row: `a` is `data[t, y, :]` and `b` is
`data[n+t, y, :]` (`t < n = dx//2`); `overlap` already an integer.  Uninitialised entries of
`np.empty` are `none`. -/
def stitchRow (rotation : String) (ov : Nat) (a b : List K) : Except PyErr (List (Option K)) := do
  let dz := a.length
  let out : List (Option K) := List.replicate (2 * dz - ov) none
  if rotation = "left" then
    let w := linspace (0 : K) 1 ov
    let out ← pySetSlice out (some (-(dz : Int) + ov)) none ((pySlice a (some ov) none).map some)
    let out ← pySetSlice out none (some ((dz : Int) - ov))
      ((pySlice b (some ov) none).reverse.map some)
    let p ← mulRows w (pySlice a none (some ov))
    let q ← mulRows w (pySlice b none (some ov))
    let r ← addRows p q.reverse
    pySetSlice out (some ((dz : Int) - ov)) (some dz) (r.map some)
  else if rotation = "right" then
    let w := linspace (1 : K) 0 ov
    let out ← pySetSlice out none (some ((dz : Int) - ov))
      ((pySlice a none (some (-(ov : Int)))).map some)
    let out ← pySetSlice out (some (-(dz : Int) + ov)) none
      ((pySlice b none (some (-(ov : Int)))).reverse.map some)
    let p ← mulRows w (pySlice a (some (-(ov : Int))) none)
    let q ← mulRows w (pySlice b (some (-(ov : Int))) none)
    let r ← addRows p q.reverse
    pySetSlice out (some ((dz : Int) - ov)) (some dz) (r.map some)
  else return out

/-- morph.py:311-353: all rows of the stack (`data t y` is a row of `dz` pixels, `dx` angles);
result rows for `t < dx/2`. -/
def sino360to180 (rotation : String) (ov dx : Nat) (data : Nat → Nat → List K) :
    Nat → Nat → Except PyErr (List (Option K)) :=
  fun t y => stitchRow rotation ov (data t y) (data (dx / 2 + t) y)

end

end Tomopy.Morph
