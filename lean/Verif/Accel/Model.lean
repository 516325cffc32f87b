import Verif.Base
import Mathlib.Algebra.BigOperators.Group.Finset.Basic
import Mathlib.Algebra.BigOperators.Group.List.Basic
import Mathlib.Algebra.Order.Field.Basic
import Mathlib.Algebra.Order.BigOperators.Group.Finset
import Mathlib.Data.Fintype.Card
import Mathlib.Data.Fintype.BigOperators
import Mathlib.Logic.Function.Basic

/-! Model of the rotation-based reconstructions in source/libtomo/accel (cxx/sirt.cc, cxx/mlem.cc,
gpu/sirt.cu, gpu/mlem.cu, gpu/utils.cu, data.hh, utils.hh).

Arithmetic is exact, so the tests for finite values (sirt.cc:162, 227; mlem.cc:161, 226) hold.  An
image of one slice is a function of the flat index of utils.hh and sirt.cc; slice `s` of an array
with all slices starts at `s * nx * ny`.  The rotation of OpenCV and NPP is a parameter (`Rot`); its
nearest-neighbour version for quarter turns is `turn`. -/

set_option linter.unusedSectionVars false

namespace Tomopy.Accel

variable {K : Type} [Field K] [LinearOrder K] [IsStrictOrderedRing K]

/-- A slice, by flat index `d * nx + i` (sirt.cc:158). -/
abbrev Img (K : Type) := Nat → K

/-- The two algorithms (cxx/sirt.cc, cxx/mlem.cc). -/
inductive Alg where
  | sirt
  | mlem
  deriving DecidableEq

/-- Sizes (sirt.cc:195: dy, dt, dx, ngridx, ngridy). -/
structure Dims where
  dy : Nat
  dt : Nat
  dx : Nat
  nx : Nat
  ny : Nat

/-- utils.hh:188-198 `cxx_rotate_ip`, with the angle of projection `p` (sirt.cc:137
`fmodf(theta[p] + halfpi, twopi)`): `fwd p` turns by minus that angle, `bwd p` by the angle itself;
`cover p j` tells whether pixel `j` of the turned image of ones is positive (utils.hh:227, 240). -/
structure Rot (K : Type) where
  fwd : Nat → Img K → Img K
  bwd : Nat → Img K → Img K
  cover : Nat → Nat → Bool

/-! ### One projection -/

/-- sirt.cc:161, mlem.cc:160 `upd`. -/
def residual (A : Alg) (b sum : K) : K :=
  match A with
  | .sirt => b - sum
  | .mlem => b / sum

/-- sirt.cc:155-168, mlem.cc:154-167: the body of the loop over `d`; `b` is `data + p * dx`. -/
def rowStep (A : Alg) (nx : Nat) (b : Nat → K) (rot : Img K) (d : Nat) : Img K :=
  let sum := ∑ i ∈ Finset.range nx, rot (d * nx + i)
  if sum ≠ 0 then
    fun j => if d * nx ≤ j ∧ j < d * nx + nx then rot j + residual A (b d) sum else rot j
  else rot

/-- sirt.cc:153-168, mlem.cc:152-167: the loop over `d`. -/
def simulate (A : Alg) (D : Dims) (b : Nat → K) (rot : Img K) : Img K :=
  (List.range D.dx).foldl (rowStep A D.nx b) rot

/-- gpu/sirt.cu:77-84: the body of the kernel's loop; there is no test of `sum`. -/
def rowStepGpuSirt (nx : Nat) (b : Nat → K) (rot : Img K) (d : Nat) : Img K :=
  let sum := ∑ i ∈ Finset.range nx, rot (d * nx + i)
  fun j => if d * nx ≤ j ∧ j < d * nx + nx then rot j + (b d - sum) else rot j

/-- gpu/sirt.cu:70-85 `cuda_sirt_pixels_kernel`, the rows in some order. -/
def simulateGpuSirt (nx : Nat) (b : Nat → K) (rows : List Nat) (rot : Img K) : Img K :=
  rows.foldl (rowStepGpuSirt nx b) rot

/-- gpu/sirt.cu:73-76: rows visited by thread `t` of block `blk`, with `block` threads per block
and `grid` blocks. -/
def threadRows (dx grid block blk t : Nat) : List Nat :=
  (List.range dx).filter fun d => blk * block + t ≤ d ∧ (d - (blk * block + t)) % (block * grid) = 0

/-- gpu/utils.cu:116, 130: elements of `rot` allocated, and elements set to zero. -/
def gpuClear (nx ny : Nat) : Nat × Nat := (nx * ny, nx * nx)

/-- sirt.cc:134-176: what projection `p` adds to slice `s`; `data s p d` is `data[p * dx + d]` of
slice `s`, `x s` the slice of `recon`. -/
def contrib (A : Alg) (D : Dims) (R : Rot K) (data : Nat → Nat → Nat → K) (x : Nat → Img K)
    (p s : Nat) : Img K :=
  R.bwd p (simulate A D (data s p) (R.fwd p (x s)))

/-- Flat indices of `rot` used by sirt.cc:154-168 and of `ones` used by utils.hh:219-230, for all
projections and slices; `rot` and `ones` have `nx * ny` elements (data.hh:236, utils.hh:233). -/
def accesses (D : Dims) : List Nat :=
  (List.range D.dt).flatMap fun _ => (List.range D.dy).flatMap fun _ =>
    (List.range D.dx).flatMap fun d => (List.range D.nx).map fun i => d * D.nx + i

/-! ### Iterations -/

/-- utils.hh:214-245 `cxx_compute_sum_dist`: element `i` of every slice, in the absence of accesses
out of bounds: one for each projection whose turned image of ones covers it, in rows below `dx`. -/
def sumDist (D : Dims) (R : Rot K) (i : Nat) : Nat :=
  ((List.range D.dt).filter fun p => decide (i < D.dx * D.nx) && R.cover p i).length

/-- sirt.cc:227-228, mlem.cc:226-227. -/
def combine (A : Alg) (x u : K) : K :=
  match A with
  | .sirt => x + u
  | .mlem => x * u

/-- sirt.cc:224-234, mlem.cc:223-233: the new image, from the array `update`. -/
def apply (A : Alg) (D : Dims) (R : Rot K) (upd x : Nat → Img K) (s i : Nat) : K :=
  if sumDist D R i ≠ 0 ∧ D.dx ≠ 0 then
    combine A (x s i) (upd s i / (sumDist D R i : K) / (D.dx : K))
  else x s i

/-- sirt.cc:209-235: one iteration, the projections one after the other. -/
def iter (A : Alg) (D : Dims) (R : Rot K) (data : Nat → Nat → Nat → K) (x : Nat → Img K) :
    Nat → Img K :=
  apply A D R (fun s i => ((List.range D.dt).map fun p => contrib A D R data x p s i).sum) x

/-- sirt.cc:193-239 `sirt_cpu`, mlem.cc:192-238 `mlem_cpu`: `none` if an access is out of bounds
(`sum_dist` is computed first, so also without iterations).  The fourth argument is `center`, which has no name in the source. -/
def run (A : Alg) (D : Dims) (R : Rot K) (_center : Nat → K) (data : Nat → Nat → Nat → K)
    (numIter : Nat) (x : Nat → Img K) : Option (Nat → Img K) :=
  if (accesses D).all (· < D.nx * D.ny) then some ((iter A D R data)^[numIter] x)
  else none

/-! ### The thread pool -/

/-- Where a worker is in sirt.cc:129-188. -/
inductive Pc where
  /-- waiting for a task -/
  | idle
  /-- before line 151, for slice `s` (before line 178 when `s = dy`) -/
  | start (p s : Nat)
  /-- after the rotation of line 151 -/
  | rotated (p s : Nat)
  /-- after the loop of lines 154-168 -/
  | simulated (p s : Nat)
  /-- after the rotation of line 171 -/
  | back (p s : Nat)
  deriving DecidableEq

/-- Projection a worker is busy with (sirt.cc:130). -/
def Pc.task : Pc → Option Nat
  | .idle => none
  | .start p _ => some p
  | .rotated p _ => some p
  | .simulated p _ => some p
  | .back p _ => some p

/-- Shared and local state of `n` workers (sirt.cc:129-188). -/
structure St (K : Type) (n : Nat) where
  /-- projections not yet taken (data.hh:198-203) -/
  queue : List Nat
  /-- positions -/
  pc : Fin n → Pc
  /-- `m_rot` of every cache (data.hh:305) -/
  rot : Nat → Img K
  /-- `m_tmp` of every cache (data.hh:306) -/
  tmp : Nat → Img K
  /-- `tmp_update` of every worker (sirt.cc:138) -/
  loc : Fin n → Nat → Img K
  /-- the shared array `update` -/
  upd : Nat → Img K
  /-- projections finished (not in the source; only records what happened) -/
  done : List Nat

/-- data.hh:198-203 and sirt.cc:215: the start of an iteration, all tasks queued, `update` zero;
the caches contain anything. -/
def initSt (n : Nat) (D : Dims) (rot tmp : Nat → Img K) : St K n :=
  ⟨List.range D.dt, fun _ => .idle, rot, tmp, fun _ _ _ => 0, fun _ _ => 0, []⟩

variable {n : Nat}

/-- One step of one worker (sirt.cc:129-188).  `c w` is the index `GetThisThreadID() %
cpu_data.size()` of the cache worker `w` uses (line 134).  The pool may hand out the tasks in any
order.  Each of the four phases of a slice is one step; the locked section (lines 178-187) is one
step because the mutex is shared by all workers (data.hh:260-264). -/
inductive Step (A : Alg) (D : Dims) (R : Rot K) (data : Nat → Nat → Nat → K) (x : Nat → Img K)
    (c : Fin n → Nat) : St K n → St K n → Prop
  /-- lines 134-138 -/
  | take (t : St K n) (w : Fin n) (p : Nat) : t.pc w = .idle → p ∈ t.queue →
      Step A D R data x c t { t with
        queue := t.queue.erase p
        pc := Function.update t.pc w (.start p 0)
        loc := Function.update t.loc w fun _ _ => 0 }
  /-- lines 148-151 -/
  | rotate (t : St K n) (w : Fin n) (p s : Nat) : t.pc w = .start p s → s < D.dy →
      Step A D R data x c t { t with
        pc := Function.update t.pc w (.rotated p s)
        rot := Function.update t.rot (c w) (R.fwd p (x s)) }
  /-- lines 154-168 -/
  | simulate (t : St K n) (w : Fin n) (p s : Nat) : t.pc w = .rotated p s →
      Step A D R data x c t { t with
        pc := Function.update t.pc w (.simulated p s)
        rot := Function.update t.rot (c w) (simulate A D (data s p) (t.rot (c w))) }
  /-- line 171 -/
  | back (t : St K n) (w : Fin n) (p s : Nat) : t.pc w = .simulated p s →
      Step A D R data x c t { t with
        pc := Function.update t.pc w (.back p s)
        tmp := Function.update t.tmp (c w) (R.bwd p (t.rot (c w))) }
  /-- lines 174-175 -/
  | add (t : St K n) (w : Fin n) (p s : Nat) : t.pc w = .back p s →
      Step A D R data x c t { t with
        pc := Function.update t.pc w (.start p (s + 1))
        loc := Function.update t.loc w
          (Function.update (t.loc w) s fun i => t.loc w s i + t.tmp (c w) i) }
  /-- lines 178-187 -/
  | commit (t : St K n) (w : Fin n) (p s : Nat) : t.pc w = .start p s → D.dy ≤ s →
      Step A D R data x c t { t with
        pc := Function.update t.pc w .idle
        upd := fun s' i => if s' < D.dy then t.upd s' i + t.loc w s' i else t.upd s' i
        done := p :: t.done }

/-- Reflexive and transitive closure of `Step` (any execution of data.hh:195-205). -/
inductive Steps (A : Alg) (D : Dims) (R : Rot K) (data : Nat → Nat → Nat → K) (x : Nat → Img K)
    (c : Fin n → Nat) : St K n → St K n → Prop
  | refl (t) : Steps A D R data x c t t
  | tail {t u v} : Steps A D R data x c t u → Step A D R data x c u v → Steps A D R data x c t v

/-- data.hh:204 `tg.join()` returns: nothing queued, nobody busy. -/
def Finished (t : St K n) : Prop := t.queue = [] ∧ ∀ w, t.pc w = .idle

/-! ### Quarter turns -/

/-- utils.hh:173-184, 188-198 for a square image of `n` by `n` pixels, nearest neighbours and an
angle with integer cosine `a` and sine `b`: `cv::Point` cuts the centre to `n / 2` in both
directions, `warpAffine` takes for each pixel the source pixel of the inverse map, if inside. -/
def turnSrc (n : Nat) (a b : ℤ) (j : Nat) : Option Nat :=
  let c : ℤ := (n / 2 : Nat)
  let u : ℤ := (j % n : Nat) - c
  let v : ℤ := (j / n : Nat) - c
  let x := c + a * u - b * v
  let y := c + b * u + a * v
  if 0 ≤ x ∧ x < n ∧ 0 ≤ y ∧ y < n then some (y.toNat * n + x.toNat) else none

/-- utils.hh:188-198 in that case; pixels without a source are zero (utils.hh:177). -/
def turn (n : Nat) (a b : ℤ) (im : Img K) : Img K := fun j =>
  match turnSrc n a b j with
  | some k => im k
  | none => 0

/-- The rotations of a scan whose angles `theta[p] + pi/2` are quarter turns with cosine `(q p).1`
and sine `(q p).2` (sirt.cc:137, 151, 171; utils.hh:239-240). -/
def quarterRot (n : Nat) (q : Nat → ℤ × ℤ) : Rot K where
  fwd p := turn n (q p).1 (-(q p).2)
  bwd p := turn n (q p).1 (q p).2
  cover p j := (turnSrc n (q p).1 (-(q p).2) j).isSome

end Tomopy.Accel
