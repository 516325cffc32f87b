import Verif.Stripe.Loop
import Verif.Mproc.Props

/-! Model of source/libtomo/prep/stripe.c:48-101 `remove_stripe_sf`, of its binding
source/tomopy/util/extern/prep.py:82-100 and of source/tomopy/prep/stripe.py:333-360.

Simplifications: a `float` is an element of an exact ordered field or NaN (`none`); indices are
unbounded integers (the C code uses `int`); `calloc` succeeds. -/
namespace Tomopy.Stripe
open Tomopy.Par

section
variable {K : Type} [Field K]

/-- NaN-propagating addition (stripe.c:67, 83). -/
def nadd (a b : Option K) : Option K := a.bind fun x => b.map fun y => x + y

/-- NaN-propagating subtraction (stripe.c:94). -/
def nsub (a b : Option K) : Option K := a.bind fun x => b.map fun y => x - y

/-- Division by an integer (stripe.c:67, 85).  Division by zero gives NaN; that is exact for the
only case in which the code can do it, 0/0 at line 85 with `size` 0. -/
def ndiv (a : Option K) (n : Int) : Option K := if n = 0 then none else a.map fun x => x / n

/-- Memory cells: `data`, `avrage_row`, `smooth_row` (stripe.c:49-53). -/
inductive SfCell where
  | data (a : Int)
  | avg (a : Int)
  | smooth (a : Int)
  deriving DecidableEq

/-- Arguments of the C function (stripe.c:49); `dx` angles, `dy` slices, `dz` columns. -/
structure SfArgs where
  dx : Nat
  dy : Nat
  dz : Nat
  size : Int

/-- Address of angle `p`, slice `s`, column `j` (stripe.c:67, 94). -/
def sfAddr (d : SfArgs) (p s j : Int) : Int := j + s * d.dz + p * d.dy * d.dz

/-- Clamped neighbour column (stripe.c:78-82); `/` truncates towards zero. -/
def sfClamp (d : SfArgs) (i j : Int) : Int :=
  let k := i + j - Int.tdiv d.size 2
  let k := if k < 0 then 0 else k
  if k > d.dz - 1 then d.dz - 1 else k

/-- stripe.c:65-68. -/
def sfAvg (d : SfArgs) (s : Nat) (j : Nat) : Prog SfCell (Option K) :=
  Prog.forEach (fun p : Nat => .read (.avg j) fun a => .read (.data (sfAddr d p s j)) fun x =>
    .write (.avg j) (nadd a (ndiv x d.dx)) .done) (List.range d.dx)

/-- stripe.c:75-85. -/
def sfSmooth (d : SfArgs) (i : Nat) : Prog SfCell (Option K) :=
  .write (.smooth i) (some 0)
    ((Prog.forEach (fun j : Nat => .read (.smooth i) fun a => .read (.avg (sfClamp d i j)) fun x =>
      .write (.smooth i) (nadd a x) .done) (List.range d.size.toNat)).seq
    (.read (.smooth i) fun a => .write (.smooth i) (ndiv a d.size) .done))

/-- stripe.c:94 for angle `v.1` and column `v.2`. -/
def sfSub (d : SfArgs) (s : Nat) (v : Nat × Nat) : Prog SfCell (Option K) :=
  .read (.avg v.2) fun a => .read (.smooth v.2) fun b => .read (.data (sfAddr d v.1 s v.2)) fun x =>
    .write (.data (sfAddr d v.1 s v.2)) (nsub x (nsub a b)) .done

/-- Angles and columns in loop order (stripe.c:89-92). -/
def sfPixels (d : SfArgs) : List (Nat × Nat) :=
  (List.range d.dx).flatMap fun p => (List.range d.dz).map fun j => (p, j)

/-- One slice: fresh rows, averages, smoothing, subtraction (stripe.c:58-99). -/
def sfSlice (d : SfArgs) (s : Nat) : Prog SfCell (Option K) :=
  (Prog.forEach (fun j : Nat => .write (.avg j) (some 0) .done) (List.range d.dz)).seq
  ((Prog.forEach (sfAvg d s) (List.range d.dz)).seq
  ((Prog.forEach (sfSmooth d) (List.range d.dz)).seq
  (Prog.forEach (sfSub d s) (sfPixels d))))

/-- The C function with `istart = 0`, `iend = dy` (stripe.c:48-101, prep.py:88-99). -/
def sfProg (d : SfArgs) : Prog SfCell (Option K) :=
  Prog.forEach (sfSlice d) (List.range d.dy)

/-- A sinogram: angle, column (stripe.c:48-101). -/
abbrev Sino (K : Type) := Nat → Nat → Option K

/-- prep.py:86 `np.require(tomo, requirements="AC")`: the block laid out in C order. -/
def sfLoad (d : SfArgs) (rows : List (Sino K)) : SfCell → Option K
  | .data a => (rows.getD (a.toNat / d.dz % d.dy) fun _ _ => none)
      (a.toNat / (d.dz * d.dy)) (a.toNat % d.dz)
  | _ => none

/-- prep.py:100 `tomo[:] = contiguous_tomo[:]` for slice `s`; outside the array: nothing. -/
def sfStore (d : SfArgs) (m : SfCell → Option K) (s : Nat) : Sino K := fun p j =>
  if p < d.dx ∧ j < d.dz then m (.data (sfAddr d p s j)) else none

/-- prep.py:82-100 `c_remove_stripe_sf` on the block of slices given to one worker by
`distribute_jobs(..., axis=1)` (stripe.py:354-359): works in place and returns `None`.
`dx` angles, `dz` columns. -/
def cRemoveStripeSf (dx dz : Nat) (size : Int) : Mproc.BlockFun (Sino K) where
  inplace rows :=
    let d : SfArgs := ⟨dx, rows.length, dz, size⟩
    let m := (sfProg d).run (sfLoad d (rows.map fun r => r.headD fun _ _ => none))
    (List.range rows.length).map fun s => (rows.getD s []).set 0 (sfStore d m s)
  ret _ := none

end

end Tomopy.Stripe
