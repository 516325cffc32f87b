import Verif.Base
import Verif.Num.Order
import Verif.Par.Model
import Verif.Corr.Model
import Mathlib.Analysis.SpecialFunctions.Exp

/-! Model of libtomo/misc/inpainter.c and of `inpainter_morph` (misc/corr.py:996-1156).

Floats are elements of an ordered field; `rand()` is an arbitrary stream of numbers. -/
set_option linter.unusedSectionVars false

namespace Tomopy.Inpaint
open Tomopy.Num Tomopy.Par Tomopy.Corr

/-! ### Geometry -/

/-- Shifted coordinate `i + d` if it lies in `0 ≤ · < dim` (inpainter.c:87-91, 158-162,
300-308, 386-394). -/
def inb (dim i : Nat) (d : Int) : Option Nat :=
  if 0 ≤ (i : Int) + d ∧ (i : Int) + d < dim then some ((i : Int) + d).toNat else none

/-- Offsets of a 2D window in loop order (inpainter.c:156-159, 595-597). -/
def offs2 (r : Nat) : List (Int × Int) :=
  (offs r).flatMap fun im => (offs r).map fun jm => (im, jm)

/-- Offsets of a 3D window in loop order (inpainter.c:384-390, 608-612). -/
def offs3 (r : Nat) : List (Int × Int × Int) :=
  (offs r).flatMap fun im => (offs r).flatMap fun jm => (offs r).map fun km => (im, jm, km)

/-- Flat address of the neighbour of pixel `(i, j)`, if inside (inpainter.c:91-93, 162-164). -/
def addr2 (dX dY i j : Nat) (o : Int × Int) : Option Nat :=
  match inb dX i o.1, inb dY j o.2 with
  | some i1, some j1 => some (j1 * dX + i1)
  | _, _ => none

/-- Flat address of the neighbour of voxel `(i, j, k)`, if inside (inpainter.c:307-311,
393-397). -/
def addr3 (dX dY dZ i j k : Nat) (o : Int × Int × Int) : Option Nat :=
  match inb dX i o.1, inb dY j o.2.1, inb dZ k o.2.2 with
  | some i1, some j1, some k1 => some (idx3 dX dY i1 j1 k1)
  | _, _, _ => none

/-- In-range addresses of a window together with the index of their weight
(`counterglob`, inpainter.c:155-173, 383-407). -/
def winOf {O : Type} (os : List O) (addr : O → Option Nat) : List (Nat × Nat) :=
  os.zipIdx.filterMap fun p => (addr p.1).map fun a => (a, p.2)

/-- What the kernels need to know about the image: number of voxels, close vicinity and search
window of every voxel (flat address), the addresses handled by each iteration of the parallel
loop, and the length of the window buffers (inpainter.c:580-661). -/
structure Geo where
  N : Nat
  nTasks : Nat
  task : Nat → List Nat
  near : Nat → List Nat
  win : Nat → List (Nat × Nat)
  full : Nat
  twoD : Bool

/-- The 2D geometry, `dimZ == 1` (inpainter.c:580-582, 643-661). -/
def geo2 (dX dY hw : Nat) : Geo where
  N := dX * dY
  nTasks := dX
  task i := (List.range dY).map fun j => j * dX + i
  near a := (offs2 1).filterMap (addr2 dX dY (a % dX) (a / dX))
  win a := winOf (offs2 hw) (addr2 dX dY (a % dX) (a / dX))
  full := (2 * hw + 1) ^ 2
  twoD := true

/-- The 3D geometry (inpainter.c:584-587, 754-777). -/
def geo3 (dX dY dZ hw : Nat) : Geo where
  N := dX * dY * dZ
  nTasks := dX
  task i := (List.range dY).flatMap fun j => (List.range dZ).map fun k => idx3 dX dY i j k
  near a := (offs3 1).filterMap (addr3 dX dY dZ (a % dX) (a / dX % dY) (a / (dX * dY)))
  win a := winOf (offs3 hw) (addr3 dX dY dZ (a % dX) (a / dX % dY) (a / (dX * dY)))
  full := (2 * hw + 1) ^ 3
  twoD := false

/-- inpainter.c:591-621: Gaussian weights, in the order of the window loops. -/
noncomputable def gauss (g : Geo) (hw : Nat) (c : Nat) : ℝ :=
  if g.twoD then
    match (offs2 hw)[c]? with
    | some o => Real.exp (-((o.1 : ℝ) ^ 2 + (o.2 : ℝ) ^ 2) / (2 * g.full))
    | none => 0
  else
    match (offs3 hw)[c]? with
    | some o => Real.exp (-((o.1 : ℝ) ^ 2 + (o.2.1 : ℝ) ^ 2 + (o.2.2 : ℝ) ^ 2) / (2 * g.full))
    | none => 0

variable {K : Type} [LinearOrder K] [Field K] [IsStrictOrderedRing K]

/-! ### Voxel kernels -/

/-- Outcome for one voxel: nothing stored, undefined behaviour of C (`qsort` of -1 elements,
`% 0`), or a value stored. -/
inductive Vox (K : Type) where
  | keep
  | crash
  | store (v : K)

/-- The values `!= 0.0` among those read (inpainter.c:94, 141, 165, 222, 246). -/
def nz (vs : List K) : List K := vs.filter fun v => v ≠ 0

/-- inpainter.c:152-180, 380-414: weighted mean of the nonzero values of the window; `ws` are
the weights of the values `vs`. -/
def meanVal (ws vs : List K) : Vox K :=
  let ps := (vs.zip ws).filter fun p => p.1 ≠ 0
  if ps.length > 0 then
    .store ((ps.map fun p => p.1 * p.2).sum / (ps.map fun p => p.2).sum)
  else .keep

/-- inpainter.c:236-261: 2D "median": `qsort` sorts only `counter_local - 1` values. -/
def median2Val (full : Nat) (vs : List K) : Vox K :=
  let v := nz vs
  if v.length = 0 then .crash
  else .store ((sortL (v.take (v.length - 1)) ++ v.drop (v.length - 1)
    ++ List.replicate (full - v.length) 0).getD (v.length / 2) 0)

/-- inpainter.c:481-511: 3D "median": `qsort` sorts the whole buffer, with its unused zeros. -/
def median3Val (full : Nat) (vs : List K) : Vox K :=
  let v := nz vs
  .store ((sortL (v ++ List.replicate (full - v.length) 0)).getD (v.length / 2) 0)

/-- inpainter.c:265-267, 515-517: mean of two random nonzero values of the window. -/
def randVal (r : Nat × Nat) (vs : List K) : Vox K :=
  let v := nz vs
  if v.length = 0 then .crash
  else .store (1 / 2 * (v.getD (r.1 % v.length) 0 + v.getD (r.2 % v.length) 0))

/-- inpainter.c:83-105, 296-324: mean of the nonzero values in the close vicinity. -/
def smoothVal (vs : List K) : Vox K :=
  let v := nz vs
  if v.length > 0 then .store (v.sum / v.length) else .keep

/-- One kind of pass over the image: addresses read first, test on them, addresses read next,
value stored, and whether storing removes the voxel from the mask (inpainter.c:109-182, 185-275). -/
structure Kernel (K : Type) where
  first : Nat → List Nat
  vic : List K → Bool
  second : Nat → List Nat
  val : Nat → List K → Vox K
  clear : Bool

/-- The methods 'mean', 'median', 'random' (corr.py:1080-1085). -/
inductive Method where
  | mean
  | median
  | random
  deriving DecidableEq

/-- inpainter.c:109-183, 185-273, 328-523: kernel of a method; `w` are the weights, `rnd a` the
two random numbers drawn for voxel `a`. -/
def kernel (g : Geo) (w : Nat → K) (rnd : Nat → Nat × Nat) : Method → Kernel K
  | .mean =>
    { first := g.near, vic := fun ns => ns.any fun v => v ≠ 0,
      second := fun a => (g.win a).map Prod.fst,
      val := fun a vs => meanVal ((g.win a).map fun p => w p.2) vs, clear := true }
  | .median =>
    { first := g.near, vic := fun ns => (nz ns).sum ≠ 0,
      second := fun a => (g.win a).map Prod.fst,
      val := fun _ vs => if g.twoD then median2Val g.full vs else median3Val g.full vs,
      clear := true }
  | .random =>
    { first := g.near, vic := fun ns => (nz ns).sum ≠ 0,
      second := fun a => (g.win a).map Prod.fst,
      val := fun a vs => randVal (rnd a) vs, clear := true }

/-- inpainter.c:67-107, 278-326: the smoothing pass, which keeps the mask. -/
def smoothKernel (g : Geo) : Kernel K :=
  { first := fun _ => [], vic := fun _ => true, second := g.near,
    val := fun _ vs => smoothVal vs, clear := false }

/-- What a kernel does with voxel `a` when `Output` is `out` (inpainter.c:128-182). -/
def Kernel.vox (k : Kernel K) (out : Nat → K) (a : Nat) : Vox K :=
  if k.vic ((k.first a).map out) then k.val a ((k.second a).map out) else .keep

/-! ### Sequential meaning of a pass -/

/-- The arrays `Output`, `Updated`, `M_upd` (inpainter.c:540-542). -/
structure St (K : Type) where
  out : Nat → K
  upd : Nat → K
  msk : Nat → Bool

/-- The voxel is in the mask and its kernel crashes (inpainter.c:258, 265). -/
def Kernel.crashes (k : Kernel K) (s : St K) (a : Nat) : Bool :=
  s.msk a && match k.vox s.out a with
    | .crash => true
    | _ => false

/-- `Updated` after the parallel loop (inpainter.c:178, 260, 267). -/
def Kernel.upd' (k : Kernel K) (s : St K) (a : Nat) : K :=
  if s.msk a then match k.vox s.out a with
    | .store v => v
    | _ => s.upd a
  else s.upd a

/-- `M_upd` after the parallel loop (inpainter.c:179, 269). -/
def Kernel.msk' (k : Kernel K) (s : St K) (a : Nat) : Bool :=
  s.msk a && match k.vox s.out a with
    | .store _ => !k.clear
    | _ => true

/-- One pass and the following `memcpy(Output, Updated)` (inpainter.c:643-662, 754-778);
`none` when a kernel runs into undefined behaviour. -/
def pass (N : Nat) (k : Kernel K) (s : St K) : Option (St K) :=
  if (List.range N).any (k.crashes s) then none
  else some ⟨fun a => if a < N then k.upd' s a else s.upd a,
    fun a => if a < N then k.upd' s a else s.upd a,
    fun a => if a < N then k.msk' s a else s.msk a⟩

/-- `countmask` (inpainter.c:566-576, 666-673). -/
def countMask (N : Nat) (m : Nat → Bool) : Nat := ((List.range N).filter fun a => m a).length

/-- inpainter.c:641-679: at most `fuel` passes, until the mask is empty.  `l` numbers the passes
(different random numbers in each). -/
def fillLoop (N : Nat) (ker : Nat → Kernel K) : Nat → Nat → St K → Option (St K)
  | 0, _, s => some s
  | fuel + 1, l, s =>
    match pass N (ker l) s with
    | none => none
    | some s' => if countMask N s'.msk = 0 then some s' else fillLoop N ker fuel (l + 1) s'

/-- inpainter.c:705-727: `n` passes. -/
def iterLoop (N : Nat) (ker : Nat → Kernel K) : Nat → Nat → St K → Option (St K)
  | 0, _, s => some s
  | n + 1, l, s =>
    match pass N (ker l) s with
    | none => none
    | some s' => iterLoop N ker n (l + 1) s'

/-- inpainter.c:683-696, 730-743: smoothing pass over the original mask, 'random' only. -/
def smoothIf (g : Geo) (meth : Method) (mask : Nat → Bool) (s : St K) : Option (St K) :=
  if meth = .random then pass g.N (smoothKernel g) { s with msk := mask } else some s

/-- inpainter.c:526-880 `Inpainter_morph_main`: the array `Output` at return. `rnd l a` are the
random numbers used for voxel `a` in pass `l` (passes of the second stage are numbered after
those of the first). -/
def inpaint (g : Geo) (w : Nat → K) (meth : Method) (iterations : Nat)
    (rnd : Nat → Nat → Nat × Nat) (input : Nat → K) (mask : Nat → Bool) : Option (Nat → K) :=
  let z : Nat → K := fun a => if a < g.N ∧ mask a then 0 else input a          -- 560-576
  let cm := countMask g.N mask
  if cm = 0 then some z                                                      -- 624-630
  else
    match fillLoop g.N (fun l => kernel g w (rnd l) meth) cm 0 ⟨z, z, mask⟩ with
    | none => none
    | some s1 =>
      match smoothIf g meth mask s1 with
      | none => none
      | some s2 =>
        if iterations > 0 then
          match iterLoop g.N (fun l => kernel g w (rnd l) meth) iterations cm
              { s2 with msk := mask } with
          | none => none
          | some s3 =>
            match smoothIf g meth mask s3 with
            | none => none
            | some s4 => some s4.out
        else some s2.out

/-! ### The parallel loop -/

/-- Memory cells (inpainter.c:540-542); a `bool` is stored as 1 or 0. -/
inductive ICell where
  | out (a : Nat)
  | upd (a : Nat)
  | msk (a : Nat)
  deriving DecidableEq

/-- Body of one iteration of the `omp parallel for` (inpainter.c:644-661, 755-777): the voxels
`as` one after another.  A crash ends the program. -/
def taskProg (k : Kernel K) : List Nat → Prog ICell K
  | [] => .done
  | a :: as =>
    .read (.msk a) fun m =>
      if m ≠ 0 then
        Prog.readAll ((k.first a).map ICell.out) fun ns =>
          if k.vic ns then
            Prog.readAll ((k.second a).map ICell.out) fun vs =>
              match k.val a vs with
              | .keep => taskProg k as
              | .crash => .done
              | .store v =>
                .write (.upd a) v
                  (if k.clear then .write (.msk a) 0 (taskProg k as) else taskProg k as)
          else taskProg k as
      else taskProg k as

/-- Iteration `i` of the parallel loop (inpainter.c:644-661, 755-777). -/
def task (g : Geo) (k : Kernel K) (i : Nat) : Prog ICell K :=
  if i < g.nTasks then taskProg k (g.task i) else .done

/-! ### The Python layer -/

/-- corr.py:1094-1144: what `inpainter_morph` hands to C. -/
inductive Call where
  | whole (dx dy dz : Nat)
  | slices (count dx dy : Nat)
  deriving DecidableEq

/-- numpy `squeeze` (corr.py:1103): drop the dimensions of length one. -/
def squeeze (shape : List Nat) : List Nat := shape.filter fun n => n ≠ 1

/-- corr.py:1067-1154: checks and dispatch for an array of shape `shape`; `maskShape` is never
looked at. -/
def inpaintCall (shape _maskShape : List Nat) (maskBool : Bool) (type : String)
    (axis : Option Int) : Except PyErr Call :=
  if maskBool = false then .error .value                                       -- 1069-1072
  else if ¬ (type = "mean" ∨ type = "median" ∨ type = "random") then .error .value   -- 1075-1078
  else if axis.isSome ∧ (shape.length = 2 ∨ axis.any (fun a => a < 0 ∨ a > 2)) then .error .value
  else match shape with
    | [dz, dy, dx] =>
      if dz = 0 ∨ dy = 0 ∨ dx = 0 then .error .value                           -- 1096-1097
      else match axis with
        | some ax =>
          match squeeze (shape.set ax.toNat 1) with                            -- 1102-1105
          | [h, w] => .ok (.slices (shape.getD ax.toNat 0) w h)
          | _ => .error .value
        | none => .ok (.whole dx dy dz)
    | [dy, dx] => if dy = 0 ∨ dx = 0 then .error .value else .ok (.whole dx dy 1)
    | _ => .error .value

end Tomopy.Inpaint
