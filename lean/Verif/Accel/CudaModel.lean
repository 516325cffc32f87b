import Verif.Accel.Model
import Verif.Par.Stencil

/-! Model of the CUDA kernels in source/libtomo/accel/gpu/sirt.cu, mlem.cu, utils.cu and
source/libtomo/accel/utils.hh.

Simplifications: exact arithmetic (so `upd == upd` and `update[i] == update[i]` hold); a global
memory access is one atomic step, `atomicAdd` one atomic step; the rotation of NPP is the parameter
`Rot` of Model.lean. -/
set_option linter.unusedSectionVars false

namespace Tomopy.Accel
open Tomopy.Par

variable {K : Type} [Field K] [LinearOrder K] [IsStrictOrderedRing K]

/-- utils.hh:296-300 `ComputeGridSize`, data.hh:392-395 `compute_grid` without a size given by the
user; `none`: division by zero. -/
def gridSize (size block : Nat) : Option Nat :=
  if block = 0 then none else some ((size + block - 1) / block)

/-- data.hh:392-395 `compute_grid`. -/
def computeGrid (userGrid : Int) (size block : Nat) : Option Nat :=
  if userGrid < 1 then gridSize size block else some userGrid.toNat

/-- The loop `for(i = i0; i < size; i += stride)` of every kernel (mlem.cu:73-76, 97-100; sirt.cu:73-76,
93-96; utils.hh:516-518, 528-530): the values of `i`, for a positive stride. -/
def strideLoop (size stride : Nat) (i0 : Nat) : List Nat :=
  if _h : i0 < size ∧ 0 < stride then i0 :: strideLoop size stride (i0 + stride) else []
termination_by size - i0

/-- A location of the global memory, in the arrays used by the kernels (mlem.cu:71, 94; utils.hh:514, 526). -/
inductive Cell where
  | rot (i : Nat)
  | data (i : Nat)
  | recon (i : Nat)
  | update (i : Nat)
  | dist (i : Nat)
  deriving DecidableEq

/-- mlem.cu:86, sirt.cu:83 `recon[d * nx + i] += upd`. -/
def bump (u : K) (i : Nat) : Prog Cell K := .read (.rot i) fun v => .write (.rot i) (v + u) .done

/-- The indices `d * nx + i` for `i < nx` (mlem.cu:79-80, 85-86). -/
def rowCells (nx d : Nat) : List Nat := (List.range nx).map (d * nx + ·)

/-- mlem.cu:78-87 and sirt.cu:78-83: one row in the kernel; `p * dx` is the start of the
projection. -/
def pixelsBody (A : Alg) (p nx dx d : Nat) : Prog Cell K :=
  Prog.readAll ((rowCells nx d).map Cell.rot) fun vs =>
    let sum := vs.foldl (· + ·) 0
    match A with
    | .mlem =>
      if sum ≠ 0 then .read (.data (p * dx + d)) fun b =>
        Prog.forEach (bump (b / sum)) (rowCells nx d)
      else .done
    | .sirt => .read (.data (p * dx + d)) fun b => Prog.forEach (bump (b - sum)) (rowCells nx d)

/-- mlem.cu:70-89 `cuda_mlem_pixels_kernel`, sirt.cu:70-85 `cuda_sirt_pixels_kernel`: thread `t` of
`threads = gridDim.x * blockDim.x`, numbered `blockIdx.x * blockDim.x + threadIdx.x`. -/
def pixelsKernel (A : Alg) (p nx dx threads : Nat) (t : Fin threads) : Prog Cell K :=
  Prog.forEach (pixelsBody A p nx dx) (strideLoop dx threads t)

/-- mlem.cu:102-103, sirt.cu:98-99. -/
def updateBody (A : Alg) (dx i : Nat) : Prog Cell K :=
  .read (.dist i) fun s => if s ≠ 0 ∧ dx ≠ 0 then
    .read (.update i) fun u => .read (.recon i) fun v =>
      .write (.recon i) (combine A v (u / s / (dx : K))) .done
  else .done

/-- mlem.cu:93-105 `cuda_mlem_update_kernel`, sirt.cu:89-101 `cuda_sirt_update_kernel`. -/
def updateKernel (A : Alg) (dx size threads : Nat) (t : Fin threads) : Prog Cell K :=
  Prog.forEach (updateBody A dx) (strideLoop size threads t)

/-! ### atomicAdd -/

/-- Threads that only add to cells of one array: what each of them still has to add, and the array
(utils.hh:524-532, utils.cu:96). -/
structure Adding (ι K : Type) where
  todo : ι → List (Nat × K)
  mem : Nat → K

/-- One `atomicAdd` of thread `i` (utils.hh:531). -/
def Adding.step {ι : Type} [DecidableEq ι] (c : Adding ι K) (i : ι) : Adding ι K :=
  match c.todo i with
  | [] => c
  | (a, v) :: r => ⟨fun j => if j = i then r else c.todo j,
      fun b => if b = a then c.mem b + v else c.mem b⟩

/-- A schedule (utils.hh:531). -/
def Adding.exec {ι : Type} [DecidableEq ι] (c : Adding ι K) (sched : List ι) : Adding ι K :=
  sched.foldl Adding.step c

/-- utils.hh:524-532 `cuda_atomic_sum_kernel` with factor 1 (mlem.cu:156, sirt.cu:152): what thread
`t` adds; `off` is the start of the slice. -/
def atomicSum (off size threads : Nat) (src : Nat → K) (t : Fin threads) : List (Nat × K) :=
  (strideLoop size threads t).map fun i => (off + i, src i)

/-- utils.cu:77-100 `cuda_sum_dist_compute`: what thread `(tx, ty, tz)` adds; `ones` is the turned
image, `gx`, `gy`, `gz` are the numbers of threads in the three directions. -/
def sumDistAdds (dy dx nx ny gx gy gz : Nat) (ones : Nat → Int) (t : Fin gx × Fin gy × Fin gz) :
    List (Nat × K) :=
  (strideLoop dy gz t.2.2).flatMap fun s => (strideLoop dx gy t.2.1).flatMap fun d =>
    (strideLoop nx gx t.1).map fun n =>
      (s * nx * ny + d * nx + n, if 0 < ones (d * nx + n) then 1 else 0)

/-- utils.cu:117: `cudaMemset` with value 1 sets every byte, not every element: the elements of
`tmp`. -/
def memsetOne : Int := 1 + 256 * (1 + 256 * (1 + 256 * 1))

/-! ### One iteration -/

/-- utils.cu:104-147 `cuda_compute_sum_dist`: `dist` is a possible result, in the absence of
accesses out of bounds; `ones p` is `tmp` turned for projection `p` (line 133).  The kernels follow
each other in the default stream; numbers of threads and interleavings are arbitrary. -/
def GpuCounts (D : Dims) (ones : Nat → Nat → Int) (dist : Nat → K) : Prop :=
  ∃ gx gy gz : Nat, 0 < gx ∧ 0 < gy ∧ 0 < gz ∧ ∃ mem : Nat → Nat → K, mem 0 = (fun _ => 0) ∧
    (∀ p < D.dt, ∃ sched,
      (∀ t, (Adding.exec ⟨sumDistAdds D.dy D.dx D.nx D.ny gx gy gz (ones p), mem p⟩ sched).todo t
        = []) ∧
      mem (p + 1) =
        (Adding.exec ⟨sumDistAdds D.dy D.dx D.nx D.ny gx gy gz (ones p), mem p⟩ sched).mem) ∧
    dist = mem D.dt

/-- mlem.cu:147, sirt.cu:143: the row kernel may turn `rot` into `rot'`; `b` are the data of the
projection. -/
def GpuRows (A : Alg) (D : Dims) (p : Nat) (b : Nat → K) (rot rot' : Img K) : Prop :=
  ∃ threads : Nat, 0 < threads ∧ ∃ (m : Cell → K) (sched : List (Fin threads)),
    (∀ j, m (.rot j) = rot j) ∧ (∀ d < D.dx, m (.data (p * D.dx + d)) = b d) ∧
    (Config.exec ⟨pixelsKernel A p D.nx D.dx threads, m⟩ sched).Finished ∧
    ∀ j, rot' j = (Config.exec ⟨pixelsKernel A p D.nx D.dx threads, m⟩ sched).mem (.rot j)

/-- mlem.cu:109-162, 201-234; sirt.cu:105-158, 198-231: one iteration may turn `x` into `x'`.  The
kernels that add to `update` run at the same time for all projections and slices; `update` is zero
when the first of them starts (see StreamModel.lean) and all have ended when the update kernel
starts. -/
def GpuIter (A : Alg) (D : Dims) (R : Rot K) (data : Nat → Nat → Nat → K) (dist : Nat → K)
    (x x' : Nat → Img K) : Prop :=
  ∃ (contr : Nat → Nat → Img K) (upd : Nat → K),
    (∀ p < D.dt, ∀ s < D.dy, ∃ rot', GpuRows A D p (data s p) (R.fwd p (x s)) rot' ∧
      contr p s = R.bwd p rot') ∧
    (∃ threads : Nat, 0 < threads ∧ ∃ sched : List ((Fin D.dt × Fin D.dy) × Fin threads),
      (∀ t, (Adding.exec ⟨fun t => atomicSum (t.1.2 * D.nx * D.ny) (D.nx * D.ny) threads
        (contr t.1.1 t.1.2) t.2, fun _ => 0⟩ sched).todo t = []) ∧
      upd = (Adding.exec ⟨fun t => atomicSum (t.1.2 * D.nx * D.ny) (D.nx * D.ny) threads
        (contr t.1.1 t.1.2) t.2, fun _ => 0⟩ sched).mem) ∧
    ∃ threads : Nat, 0 < threads ∧ ∃ (m : Cell → K) (sched : List (Fin threads)),
      (∀ s < D.dy, ∀ i < D.nx * D.ny, m (.recon (s * D.nx * D.ny + i)) = x s i) ∧
      (∀ i < D.dy * D.nx * D.ny, m (.update i) = upd i ∧ m (.dist i) = dist i) ∧
      (Config.exec ⟨updateKernel A D.dx (D.dy * D.nx * D.ny) threads, m⟩ sched).Finished ∧
      ∀ s < D.dy, ∀ i < D.nx * D.ny, x' s i =
        (Config.exec ⟨updateKernel A D.dx (D.dy * D.nx * D.ny) threads, m⟩ sched).mem
          (.recon (s * D.nx * D.ny + i))

end Tomopy.Accel
