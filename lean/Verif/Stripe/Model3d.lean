import Verif.Base
import Verif.Par.Stencil
import Verif.Num.Order
import Mathlib.Algebra.Order.Floor.Defs
import Mathlib.Algebra.Order.Field.Basic

/-! Model of source/libtomo/prep/stripes_detect3d.c and of its Python front ends
`stripes_detect3d`, `stripes_mask3d` (source/tomopy/prep/stripe.py:984-1184).

Simplifications: `float` is an exact ordered field `K`; array indices are unbounded integers
(the C code computes them in `int`/`long`/`size_t`, equal as long as nothing overflows); a `bool`
is a number, true when non-zero, and `true`/`false` are stored as 1 and 0; `malloc` succeeds. -/
namespace Tomopy.Stripe
open Tomopy.Par Tomopy.Num

/-- Memory cells: the weights or projections (`Input`), the work array (`mask` resp.
`temp3d_arr`) and `Output` (stripes_detect3d.c:487-500, 579-593). -/
inductive Cell where
  | input (a : Int)
  | work (a : Int)
  | out (a : Int)
  deriving DecidableEq

/-- A voxel `(i, j, k)`: column, depth row, angle (stripes_detect3d.c:519-525). -/
abbrev Vox := Nat × Nat × Nat

/-- Flat index (stripes_detect3d.c:85, 138, 153, 231, 270, ...). -/
def idx (dX dY : Nat) (i j k : Int) : Int := dX * dY * k + j * dX + i

/-- Neighbour coordinate, reflected to the other side when outside on either side
(stripes_detect3d.c:145-147, 150-152, 239-241, 329-331, 354-356, 384-386). -/
def refl (dim : Nat) (i d : Int) : Int := if i + d < 0 ∨ i + d ≥ dim then i - d else i + d

/-- Neighbour coordinate, reflected only at the lower end (stripes_detect3d.c:186-188, 420-422,
454-456). -/
def reflLo (i d : Int) : Int := if i + d < 0 then i - d else i + d

/-- Neighbour coordinate, reflected only at the upper end (stripes_detect3d.c:89-91, 168-170,
433-435, 467-469). -/
def reflHi (dim : Nat) (i d : Int) : Int := if i + d ≥ dim then i - d else i + d

/-- Loop counter values `a, …, b` (`for(x = a; x <= b; x++)`, stripes_detect3d.c:143 and others). -/
def intRange (a b : Int) : List Int := (List.range (b + 1 - a).toNat).map fun (n : Nat) => a + n

/-- Voxels of angle `k` in loop order (stripes_detect3d.c:519-523). -/
def plane (dX dY dZ k : Nat) : List Vox :=
  if k < dZ then
    (List.range dY).flatMap fun j => (List.range dX).map fun i => (i, j, k)
  else []

/-- Voxels of depth row `j` in the loop order of stripes_detect3d.c:79-83. -/
def planeJ (dX dY dZ j : Nat) : List Vox :=
  if j < dY then
    (List.range dX).flatMap fun i => (List.range dZ).map fun k => (i, j, k)
  else []

section Field
variable {K : Type} [LinearOrder K] [Field K] [IsStrictOrderedRing K] [FloorRing K]

/-- An `omp parallel for` (stripes_detect3d.c:78-83, 518-528 and the other loops) whose iteration
`k` runs through the voxels `vox k`: from memory `m` some schedule of the iterations ends in memory
`m'`. -/
def LoopOver (vox : Nat → List Vox) (body : Vox → Prog Cell K) (m m' : Cell → K) : Prop :=
  ∃ sched : List Nat,
    (Config.exec ⟨fun k => Prog.forEach body (vox k), m⟩ sched).Finished ∧
    (Config.exec ⟨fun k => Prog.forEach body (vox k), m⟩ sched).mem = m'

/-- A parallel loop over the angles `k` (stripes_detect3d.c:518-523 and the others). -/
def Loop (dX dY dZ : Nat) (body : Vox → Prog Cell K) (m m' : Cell → K) : Prop :=
  LoopOver (plane dX dY dZ) body m m'

/-! ### stripes_mask3d -/

/-- Arguments of `stripesmask3d_main_float` (stripes_detect3d.c:579-582). -/
structure MaskArgs (K : Type) where
  dX : Nat
  dY : Nat
  dZ : Nat
  threshold : K
  length : Nat
  depth : Nat
  width : Nat
  sensitivity : K

/-- stripe.py:1140-1168: the checks of `stripes_mask3d` on `weights.shape` and the parameters. -/
def maskArgs (shape : List Nat) (threshold : K) (length depth width : Int) (sensitivity : K) :
    Except PyErr (MaskArgs K) :=
  match shape with
  | [dz, dy, dx] =>
    if dz = 0 ∨ dy = 0 ∨ dx = 0 then .error .value                     -- 1142-1144
    else if length ≤ 0 ∨ length ≥ dz then .error .value                -- 1149-1152
    else if depth < 0 ∨ depth ≥ dy then .error .value                  -- 1154-1157
    else if width ≤ 0 ∨ width ≥ dx then .error .value                  -- 1159-1162
    else if 0 < sensitivity ∧ sensitivity ≤ 100 then                   -- 1164-1168
      .ok ⟨dx, dy, dz, threshold, length.toNat, depth.toNat, width.toNat, sensitivity⟩
    else .error .value
  | _ => .error .value                                                 -- 1145-1147

variable (p : MaskArgs K)

/-- Cell of voxel `(i, j, k)` in the work array (stripes_detect3d.c:620). -/
def MaskArgs.at (p : MaskArgs K) (i j k : Int) : Cell := .work (idx p.dX p.dY i j k)

/-- stripes_detect3d.c:613-631: threshold, stored in `mask`. -/
def threshBody (p : MaskArgs K) : Vox → Prog Cell K
  | (i, j, k) => .read (.input (idx p.dX p.dY i j k)) fun w =>
      .write (p.at i j k) (if w ≤ p.threshold then 1 else 0) .done

/-- `memcpy(Output, mask, …)` (stripes_detect3d.c:634). -/
def copyToOut (n : Nat) (m : Cell → K) : Cell → K
  | .out a => if 0 ≤ a ∧ a < n then m (.work a) else m (.out a)
  | c => m c

/-- `memcpy(mask, Output, …)` (stripes_detect3d.c:652, 678, 697, 718). -/
def copyToMask (n : Nat) (m : Cell → K) : Cell → K
  | .work a => if 0 ≤ a ∧ a < n then m (.out a) else m (.work a)
  | c => m c

/-- The cells of a vertical window of half length `h` (stripes_detect3d.c:327-332, 382-387). -/
def vertCells (p : MaskArgs K) (h : Nat) (i j k : Nat) : List Cell :=
  (intRange (-h) h).map fun d => p.at i j (refl p.dZ k d)

/-- The cells of a depth window of half length `h` (stripes_detect3d.c:352-358). -/
def depthCells (p : MaskArgs K) (h : Nat) (i j k : Nat) : List Cell :=
  (intRange (-h) h).map fun d => p.at i (refl p.dY j d) k

/-- Number of set values (`counter_vert_voxels++`, stripes_detect3d.c:332-333, 357-359, 387-388). -/
def countSet (vs : List K) : Int := vs.countP fun v => decide (v ≠ 0)

/-- stripes_detect3d.c:318 `threshold_vertical` (319 for the depth): the product of non-negative
factors truncated to an integer. -/
def percent (p : MaskArgs K) (len : Nat) : Int := ⌊p.sensitivity / 100 * len⌋

/-- stripes_detect3d.c:302-366 `remove_inconsistent_stripes` with `switch_dim` 1. -/
def depthBody (p : MaskArgs K) : Vox → Prog Cell K
  | (i, j, k) => .read (p.at i j k) fun x =>
      if x ≠ 0 then
        if p.depth ≠ 0 then
          Prog.readAll (depthCells p (p.depth / 2) i j k) fun vs =>
            if countSet vs > percent p p.depth then
              .write (.out (idx p.dX p.dY i j k)) 0 .done
            else .done
        else .done
      else .done

/-- stripes_detect3d.c:302-366 `remove_inconsistent_stripes` with `switch_dim` 0. -/
def lengthBody (p : MaskArgs K) : Vox → Prog Cell K
  | (i, j, k) => .read (p.at i j k) fun x =>
      if x ≠ 0 then
        Prog.readAll (vertCells p (p.length / 2) i j k) fun vs =>
          if countSet vs < percent p p.length then
            .write (.out (idx p.dX p.dY i j k)) 0 .done
          else .done
      else .done

/-- stripes_detect3d.c:368-393 `remove_short_stripes`. -/
def shortBody (p : MaskArgs K) : Vox → Prog Cell K
  | (i, j, k) => .read (p.at i j k) fun x =>
      if x ≠ 0 then
        Prog.readAll (vertCells p (p.length / 2) i j k) fun vs =>
          if countSet vs < (p.length / 2 : Nat) then
            .write (.out (idx p.dX p.dY i j k)) 0 .done
          else .done
      else .done

/-- A search loop with `break`: reads the cells in order until one is set
(stripes_detect3d.c:418-428, 431-441, 452-462, 465-475). -/
def anySet : List Cell → (Bool → Prog Cell K) → Prog Cell K
  | [], k => k false
  | c :: cs, k => .read c fun v => if v ≠ 0 then k true else anySet cs k

/-- Cells to the left, loop order (stripes_detect3d.c:418-423). -/
def leftCells (p : MaskArgs K) (i j k : Nat) : List Cell :=
  (intRange (-(p.width / 2 : Nat)) 0).map fun d => p.at (reflLo i d) j k

/-- Cells to the right (stripes_detect3d.c:431-436). -/
def rightCells (p : MaskArgs K) (i j k : Nat) : List Cell :=
  (intRange 0 (p.width / 2 : Nat)).map fun d => p.at (reflHi p.dX i d) j k

/-- Cells above (stripes_detect3d.c:452-457). -/
def upCells (p : MaskArgs K) (i j k : Nat) : List Cell :=
  (intRange (-(2 * p.width : Nat)) 0).map fun d => p.at i j (reflLo k d)

/-- Cells below (stripes_detect3d.c:465-470). -/
def downCells (p : MaskArgs K) (i j k : Nat) : List Cell :=
  (intRange 0 (2 * p.width : Nat)).map fun d => p.at i j (reflHi p.dZ k d)

/-- stripes_detect3d.c:447-479: the vertical part of `merge_stripes`. -/
def mergeVert (p : MaskArgs K) (i j k : Nat) : Prog Cell K :=
  .read (.out (idx p.dX p.dY i j k)) fun o =>
    if o = 0 then
      anySet (upCells p i j k) fun u => anySet (downCells p i j k) fun d =>
        if u && d then .write (.out (idx p.dX p.dY i j k)) 1 .done else .done
    else .done

/-- stripes_detect3d.c:395-481 `merge_stripes`. -/
def mergeBody (p : MaskArgs K) : Vox → Prog Cell K
  | (i, j, k) => .read (p.at i j k) fun x =>
      if x = 0 then
        anySet (leftCells p i j k) fun l => anySet (rightCells p i j k) fun r =>
          if l && r then .write (.out (idx p.dX p.dY i j k)) 1 (mergeVert p i j k)
          else mergeVert p i j k
      else .done

/-- `totalvoxels` (stripes_detect3d.c:590). -/
def MaskArgs.total (p : MaskArgs K) : Nat := p.dX * p.dY * p.dZ

/-- stripes_detect3d.c:703-719: `n` rounds of merging, each followed by the copy. -/
def MergeRun (p : MaskArgs K) : Nat → (Cell → K) → (Cell → K) → Prop
  | 0, m, m' => m' = m
  | n + 1, m, m' => ∃ m1, Loop p.dX p.dY p.dZ (mergeBody p) m m1 ∧
      MergeRun p n (copyToMask p.total m1) m'

/-- stripes_detect3d.c:609-697: the stages before merging; `m'` is the memory after the copy in
line 697. -/
def CleanRun (p : MaskArgs K) (m m' : Cell → K) : Prop :=
  ∃ m1 m2 m3 m4,
    Loop p.dX p.dY p.dZ (threshBody p) m m1 ∧
    Loop p.dX p.dY p.dZ (depthBody p) (copyToOut p.total m1) m2 ∧
    Loop p.dX p.dY p.dZ (lengthBody p) (copyToMask p.total m2) m3 ∧
    Loop p.dX p.dY p.dZ (shortBody p) (copyToMask p.total m3) m4 ∧
    m' = copyToMask p.total m4

/-- stripes_detect3d.c:578-723 `stripesmask3d_main_float`: some execution leads from memory `m`
to memory `m'`. -/
def MaskRun (p : MaskArgs K) (m m' : Cell → K) : Prop :=
  ∃ m1, CleanRun p m m1 ∧ MergeRun p p.width m1 m'

/-! ### stripes_detect3d -/

/-- Arguments of `stripesdetect3d_main_float` (stripes_detect3d.c:487-488). -/
structure DetectArgs where
  dX : Nat
  dY : Nat
  dZ : Nat
  half : Nat
  radius : Int

/-- stripe.py:1038-1050: the checks of `stripes_detect3d`; `radius` is not checked. -/
def detectArgs (shape : List Nat) (size radius : Int) : Except PyErr DetectArgs :=
  match shape with
  | [dz, dy, dx] =>
    if dz = 0 ∨ dy = 0 ∨ dx = 0 then .error .value
    else if size ≤ 0 ∨ size > (dz / 2 : Nat) then .error .value
    else .ok ⟨dx, dy, dz, size.toNat, radius⟩
  | _ => .error .value

/-- stripes_detect3d.c:272-297 in `mean_stride3d`: the six neighbours read, in order. -/
def meanCells (d : DetectArgs) (i j k : Nat) : List Cell :=
  let i1 : Int := if (i : Int) - 1 < 0 then i + 1 else i - 1           -- 279-282
  let i2 : Int := if (i : Int) + 1 ≥ d.dX then i1 else i + 1
  let j1 : Int := if (j : Int) - 1 < 0 then j + 1 else j - 1
  let j2 : Int := if (j : Int) + 1 ≥ d.dY then j1 else j + 1
  let k1 : Int := if (k : Int) - 1 < 0 then k + 1 else k - 1
  let k2 : Int := if (k : Int) + 1 ≥ d.dZ then k1 else k + 1
  [(i1, (j : Int), (k : Int)), (i2, (j : Int), (k : Int)), ((i : Int), j1, (k : Int)),
    ((i : Int), j2, (k : Int)), ((i : Int), (j : Int), k1), ((i : Int), (j : Int), k2)].map
    fun c => .input (idx d.dX d.dY c.1 c.2.1 c.2.2)

/-- stripes_detect3d.c:251-300 `mean_stride3d`. -/
def meanBody (d : DetectArgs) : Vox → Prog Cell K
  | (i, j, k) => .read (.input (idx d.dX d.dY i j k)) fun x =>
      Prog.readAll (meanCells d i j k) fun vs =>
        .write (.work (idx d.dX d.dY i j k)) (0.1428 * (x + vs.sum)) .done

/-- stripes_detect3d.c:66-117 `gradient3D_local` with `axis` 0 and `step_size` 2 (the only call,
line 531). -/
def gradBody (d : DetectArgs) : Vox → Prog Cell K
  | (i, j, k) => .read (.input (idx d.dX d.dY (reflHi d.dX i 2) j k)) fun x =>
      .read (.input (idx d.dX d.dY i j k)) fun y =>
        .write (.out (idx d.dX d.dY i j k)) (x - y) .done

/-- Cells of the plate parallel to the stripes (stripes_detect3d.c:143-155). -/
def plateCells (d : DetectArgs) (i j k : Nat) : List Cell :=
  (intRange (-d.radius) d.radius).flatMap fun jm => (intRange (-d.radius) d.radius).map fun km =>
    .out (idx d.dX d.dY i (refl d.dY j jm) (refl d.dZ k km))

/-- Cells to the right (stripes_detect3d.c:161-173). -/
def horizCells (d : DetectArgs) (i j k : Nat) : List Cell :=
  (intRange (-1) 1).flatMap fun jm => (intRange 1 d.radius).map fun im =>
    .out (idx d.dX d.dY (reflHi d.dX i im) (refl d.dY j jm) k)

/-- Cells to the left (stripes_detect3d.c:179-191). -/
def horizCells2 (d : DetectArgs) (i j k : Nat) : List Cell :=
  (intRange (-1) 1).flatMap fun jm => (intRange (-d.radius) (-1)).map fun im =>
    .out (idx d.dX d.dY (reflLo i im) (refl d.dY j jm) k)

/-- Mean of absolute values with the divisor of the code (stripes_detect3d.c:154-157, 172-175,
190-193). -/
def meanAbs (vs : List K) (n : Int) : K := (vs.map fun v => |v|).sum / n

/-- stripes_detect3d.c:198-209: the value stored, from the previous content `o` and the three
means.  A division by zero does not occur because of the tests. -/
def ratioValue (o plate horiz horiz2 : K) : K :=
  let o := if horiz ≥ plate ∧ horiz ≠ 0 then plate / horiz else o
  let o := if horiz < plate ∧ plate ≠ 0 then horiz / plate else o
  let mv := if horiz2 ≥ plate ∧ horiz2 ≠ 0 then plate / horiz2 else 0
  let mv := if horiz2 < plate ∧ plate ≠ 0 then horiz2 / plate else mv
  if o > mv then mv else o

/-- stripes_detect3d.c:119-210 `ratio_mean_stride3d`, for `radius ≠ 0`: with radius 0 the C code
divides 0 by 0 in lines 175 and 193. -/
def ratioBody (d : DetectArgs) : Vox → Prog Cell K
  | (i, j, k) => Prog.readAll (plateCells d i j k) fun ps =>
      Prog.readAll (horizCells d i j k) fun hs =>
        Prog.readAll (horizCells2 d i j k) fun h2s =>
          .read (.work (idx d.dX d.dY i j k)) fun o =>
            .write (.work (idx d.dX d.dY i j k))
              (ratioValue o (meanAbs ps ((2 * d.radius + 1) * (2 * d.radius + 1)))
                (meanAbs hs (d.radius * 3)) (meanAbs h2s (d.radius * 3))) .done

/-- Cells of the vertical median window (stripes_detect3d.c:237-243). -/
def medCells (d : DetectArgs) (i j k : Nat) : List Cell :=
  (intRange (-d.half) d.half).map fun km => .work (idx d.dX d.dY i j (refl d.dZ k km))

/-- stripes_detect3d.c:497 `midval_window_index = (int)(0.5F * window_fulllength) - 1`. -/
def midIndex (d : DetectArgs) : Nat := (2 * d.half + 1) / 2 - 1

/-- stripes_detect3d.c:220-249 `vertical_median_stride3d`. -/
def medBody (d : DetectArgs) : Vox → Prog Cell K
  | (i, j, k) => Prog.readAll (medCells d i j k) fun vs =>
      .write (.out (idx d.dX d.dY i j k)) ((sortL vs).getD (midIndex d) 0) .done

/-- stripes_detect3d.c:486-573 `stripesdetect3d_main_float`: some execution leads from `m` to
`m'`.  The gradient loop is parallel over `j` (line 78), the others over `k`. -/
def DetectRun (d : DetectArgs) (m m' : Cell → K) : Prop :=
  ∃ m1 m2 m3,
    Loop d.dX d.dY d.dZ (meanBody d) m m1 ∧
    LoopOver (planeJ d.dX d.dY d.dZ) (gradBody d) m1 m2 ∧
    Loop d.dX d.dY d.dZ (ratioBody d) m2 m3 ∧
    Loop d.dX d.dY d.dZ (medBody d) m3 m'

end Field
end Tomopy.Stripe
