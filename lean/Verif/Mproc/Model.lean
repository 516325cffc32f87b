import Verif.Base
import Verif.Par.Model

/-! Model of source/tomopy/util/mproc.py (work splitting and `distribute_jobs`) and of the
shared-memory helpers of source/tomopy/util/dtype.py it uses. -/
namespace Tomopy.Mproc
open Tomopy.Par

/-- What `np.s_[lo:hi]` and `np.s_[i]` produce (mproc.py:151, 154, 157, 287, 289). -/
inductive Slc where
  | range (lo hi : Nat)
  | idx (i : Nat)
  deriving DecidableEq, Repr

/-- Indices selected by numpy when the slice is applied to an axis of length `n`
(mproc.py:391-392 `slice_axis`, algorithm.py:430).  numpy clips `hi` to the axis length; an
integer index outside the axis raises in numpy, here it selects nothing. -/
def Slc.indices (n : Nat) : Slc → List Nat
  | .range lo hi => List.range' lo (min hi n - lo)
  | .idx i => if i < n then [i] else []

/-- Python's `range(0, n, step)` for `step ≥ 1` (mproc.py:157, 182, 285). -/
def pyRange (n step : Nat) : List Nat :=
  (List.range ((n + step - 1) / step)).map (· * step)

/-- mproc.py:144-148: `sizes = np.ones(ncore)*chunk_size; sizes[:leftover] += 1`. -/
def evenSizes (axis ncore : Nat) : List Nat :=
  (List.range ncore).map fun i => axis / ncore + if i < axis % ncore then 1 else 0

/-- mproc.py:149-150: `offsets = zeros(ncore+1); offsets[1:] = cumsum(sizes)`;
`o` is the value in front (0 in the code). -/
def offsets (o : Nat) : List Nat → List Nat
  | [] => [o]
  | s :: ss => o :: offsets (o + s) ss

/-- mproc.py:144-151 and 167-175: the slices `offsets[i]:offsets[i+1]`. -/
def evenSlices (axis ncore : Nat) : List Slc :=
  let offs := offsets 0 (evenSizes axis ncore)
  List.zipWith Slc.range offs offs.tail

/-- mproc.py:155-157 and 179-182: `[s_[o:o+nchunk] for o in range(0, axis_size, nchunk)]`. -/
def chunkSlices (axis nchunk : Nat) : List Slc :=
  (pyRange axis nchunk).map fun o => Slc.range o (o + nchunk)

/-- mproc.py:141, 163-164: `mp.cpu_count() if not ncore else ncore` (`None` and 0 are falsy). -/
def coresOr (cpu : Nat) : Option Nat → Nat
  | none => cpu
  | some 0 => cpu
  | some (k + 1) => k + 1

/-- mproc.py:139-158 `get_ncore_slices`.  `cpu` stands for `mp.cpu_count()`.  Negative
`ncore`/`nchunk` are not modelled. -/
def getNcoreSlices (cpu axis : Nat) (ncore nchunk : Option Nat) :
    Except PyErr (Nat × List Slc) :=
  let nc := min (coresOr cpu ncore) axis
  match nchunk with
  | none => if nc = 0 then .error .zeroDivision else .ok (nc, evenSlices axis nc)
  | some 0 => .ok (nc, (List.range axis).map Slc.idx)
  | some (c + 1) => .ok (nc, chunkSlices axis (c + 1))

/-- mproc.py:184-196: the part of the slice list that MPI rank `rank` of `size` keeps.
Python slicing `slcs[off:off+nsplit]` clips to the list, as `drop`/`take` do. -/
def mpiSplit {α : Type} (slcs : List α) (size rank : Nat) : List α :=
  if size > 1 then
    let nsplit := slcs.length / size
    let nmod := slcs.length % size
    let off := nsplit * rank
    if rank = 0 then (slcs.drop off).take (nsplit + nmod)
    else (slcs.drop (off + nmod)).take nsplit
  else slcs

/-- mproc.py:161-198 `get_worker_ncore_slices` on rank `rank` of `size`.  The use of
`np.int` (an `AttributeError` with numpy ≥ 1.24, mproc.py:169) is ignored. -/
def getWorkerNcoreSlices (cpu axis : Nat) (ncore nchunk : Option Nat) (size rank : Nat) :
    Nat × List Slc :=
  let nc := coresOr cpu ncore
  let slcs := match nchunk with
    | none => evenSlices axis nc
    | some 0 => (List.range axis).map Slc.idx
    | some (c + 1) => chunkSlices axis (c + 1)
  (nc, mpiSplit slcs size rank)

/-- `math.ceil(a / b)` for positive `b` (mproc.py:131-135).  Python divides in floating
point; exact here (sizes below 2^53). -/
def ceilDiv (a b : Nat) : Nat := (a + b - 1) / b

/-- mproc.py:125-126: `if nchunk and nchunk > axis_size: nchunk = axis_size`. -/
def limitChunk (axis : Nat) : Option Nat → Option Nat
  | none => none
  | some c => if c ≠ 0 ∧ c > axis then some axis else some c

/-- mproc.py:128-129: `if ncore is None or ncore > cpu_count(): ncore = cpu_count()`. -/
def limitCores (cpu : Nat) : Option Nat → Nat
  | none => cpu
  | some k => if k > cpu then cpu else k

/-- `nchunk or 1` (mproc.py:131-132): `None` and 0 are falsy. -/
def orOne : Option Nat → Nat
  | none => 1
  | some 0 => 1
  | some (c + 1) => c + 1

/-- mproc.py:123-136 `get_ncore_nchunk`; `cpu` stands for `mp.cpu_count()`.  Negative
arguments are not modelled. -/
def getNcoreNchunk (cpu axis : Nat) (ncore nchunk : Option Nat) :
    Except PyErr (Nat × Nat) :=
  let nchunk := limitChunk axis nchunk
  let nc := limitCores cpu ncore
  -- 131-132
  let nc := if nc > ceilDiv axis (orOne nchunk) then ceilDiv axis (orOne nchunk) else nc
  -- 134-135
  match nchunk with
  | some c => .ok (nc, c)
  | none => if nc = 0 then .error .zeroDivision else .ok (nc, ceilDiv axis nc)

/-- mproc.py:283-289: the chunks handed to the pool. -/
def jobSlices (axis nchunk : Nat) : List Slc :=
  if nchunk = 0 then (pyRange axis 1).map Slc.idx
  else (pyRange axis nchunk).map fun i => Slc.range i (i + nchunk)

/-- Memory buffers seen by `distribute_jobs`: the caller's arrays, the shared copies
`as_sharedmem` makes of the inputs and of `out` (mproc.py:259-277, dtype.py:168-183). -/
inductive Buf where
  | caller (k : Nat)
  | copyIn (j : Nat)
  | copyOut
  deriving DecidableEq, Repr

/-- A memory cell of the shared arrays (mproc.py:374-384): buffer and position along `axis`.  A value is the whole slice at that
position.  Simplification: all arrays have the same length along `axis`. -/
abbrev Cell := Buf × Nat

/-- The user function of `distribute_jobs` on one block (mproc.py:380).  A block is given
row-wise: row `j` lists the `j`-th slice of every input array.  `inplace` is the contents of
the argument views after the call, `ret` the returned array (`none`: returned `None`).
Simplification: pure in the block contents; fixed `args`/`kwargs` are part of it. -/
structure BlockFun (α : Type) where
  inplace : List (List α) → List (List α)
  ret : List (List α) → Option (List α)

/-- Read, for every index of the chunk, the slice of every input buffer (mproc.py:377). -/
def readRows {α : Type} (ins : List Buf) :
    List Nat → (List (List α) → Prog Cell α) → Prog Cell α
  | [], k => k []
  | i :: is, k => Prog.readAll (ins.map fun b => (b, i)) fun row =>
      readRows ins is fun rows => k (row :: rows)

/-- Writes that a function does through its argument views (in-place modification;
mproc.py:377-380 the views alias the shared arrays). -/
def rowWrites {α : Type} (ins : List Buf) (idxs : List Nat) (rows : List (List α)) :
    List (Cell × α) :=
  (idxs.zip rows).flatMap fun p => (ins.zip p.2).map fun q => ((q.1, p.1), q.2)

/-- mproc.py:382-384: `outslice[:] = result[:]` when an array was returned. -/
def outWrites {α : Type} (out : Buf) (idxs : List Nat) : Option (List α) → List (Cell × α)
  | none => []
  | some r => (idxs.zip r).map fun p => ((out, p.1), p.2)

/-- mproc.py:368-384 `_arg_parser` on one chunk when the function does not raise. -/
def chunkProg {α : Type} (ins : List Buf) (out : Buf) (f : BlockFun α) (idxs : List Nat) :
    Prog Cell α :=
  readRows ins idxs fun rows =>
    Prog.writeAll (rowWrites ins idxs (f.inplace rows) ++ outWrites out idxs (f.ret rows))

/-- dtype.py:168-183 `as_sharedmem` for the `j`-th input: the array itself if it already is
shared memory, otherwise a shared copy. -/
def shareIn (shared : Nat → Bool) (j k : Nat) : Buf :=
  if shared k then .caller k else .copyIn j

/-- mproc.py:259-262: shared versions of the inputs, `j` counts from the given start. -/
def sharedIns (shared : Nat → Bool) : Nat → List Nat → List Buf
  | _, [] => []
  | j, k :: ks => shareIn shared j k :: sharedIns shared (j + 1) ks

/-- mproc.py:267-277: which buffer collects the results.  With `out` omitted it is the
shared version of the last input; otherwise it is `as_sharedmem(out)`. -/
def sharedOut (shared : Nat → Bool) (ins : List Nat) : Option Nat → Buf
  | none => (sharedIns shared 0 ins).getLastD (.caller 0)
  | some o => if shared o then .caller o else .copyOut

/-- Memory after the shared copies were made (dtype.py:182, mproc.py:259-277).  `out` is the
caller buffer passed as `out` if any. -/
def prepare {α : Type} (ins : List Nat) (out : Option Nat) (m : Cell → α) : Cell → α
  | (.caller k, i) => m (.caller k, i)
  | (.copyIn j, i) => match ins[j]? with
    | some k => m (.caller k, i)
    | none => m (.copyIn j, i)
  | (.copyOut, i) => match out with
    | some o => m (.caller o, i)
    | none => m (.copyOut, i)

/-- The array that is returned (mproc.py:271 / 331). -/
def resultBuf (shared : Nat → Bool) (ins : List Nat) : Option Nat → Buf
  | none => sharedOut shared ins none
  | some o => .caller o

/-- mproc.py:329: `out[:] = shared_out` copies the `n` slices into the returned array. -/
def copyBack {α : Type} (n : Nat) (src dst : Buf) (m : Cell → α) : Cell → α :=
  fun c => if c.1 = dst ∧ c.2 < n then m (src, c.2) else m c

/-- Pool phase, mproc.py:294-323: the task of chunk `k`.  A chunk for which the function
raises `RunOnHostException` in the worker has no effect on memory (its parameters go to the
queue, mproc.py:385-386).  Simplification: the function raises before touching memory. -/
def poolTask {α : Type} (ins : List Buf) (out : Buf) (f : BlockFun α)
    (chunks : List (List Nat)) (raises : Nat → Bool) (k : Nat) : Prog Cell α :=
  match chunks[k]? with
  | none => .done
  | some c => if raises k then .done else chunkProg ins out f c

/-- Order in which raising chunks enter the queue: the order in which they are first
scheduled (mproc.py:385-386 `SHARED_QUEUE.put`). -/
def queueOf (raises : Nat → Bool) (nchunks : Nat) (sched : List Nat) : List Nat :=
  sched.foldl (fun q k => if raises k = true ∧ k < nchunks ∧ k ∉ q then q ++ [k] else q) []

/-- mproc.py:395-398 `clear_queue`: the host runs the queued chunks one after the other.
Simplification: on the host the function does not raise again. -/
def hostRun {α : Type} (ins : List Buf) (out : Buf) (f : BlockFun α)
    (chunks : List (List Nat)) (queue : List Nat) (m : Cell → α) : Cell → α :=
  queue.foldl (fun m k => match chunks[k]? with
    | some c => (chunkProg ins out f c).run m
    | none => m) m

/-- The pool has finished: every non-raising chunk has run to its end and every raising
chunk was started (mproc.py:315-318 `res.get(); p.join()`). -/
def PoolDone {α : Type} (ins : List Buf) (out : Buf) (f : BlockFun α)
    (chunks : List (List Nat)) (raises : Nat → Bool) (m : Cell → α) (sched : List Nat) :
    Prop :=
  (Config.exec ⟨poolTask ins out f chunks raises, m⟩ sched).Finished ∧
    ∀ k < chunks.length, raises k = true → k ∈ sched

/-- Pool branch of `distribute_jobs` (mproc.py:294-323) under schedule `sched`. -/
def poolRun {α : Type} (ins : List Buf) (out : Buf) (f : BlockFun α)
    (chunks : List (List Nat)) (raises : Nat → Bool) (sched : List Nat) (m : Cell → α) :
    Cell → α :=
  hostRun ins out f chunks (queueOf raises chunks.length sched)
    (Config.exec ⟨poolTask ins out f chunks raises, m⟩ sched).mem

/-- Serial branch (mproc.py:324-326).  A raising chunk is queued and, since
`clear_queue` is only called in the pool branch, never executed. -/
def serialRun {α : Type} (ins : List Buf) (out : Buf) (f : BlockFun α)
    (chunks : List (List Nat)) (raises : Nat → Bool) (m : Cell → α) : Cell → α :=
  (List.range chunks.length).foldl
    (fun m k => (poolTask ins out f chunks raises k).run m) m

/-- Arguments of `distribute_jobs` (mproc.py:201-208): length along the axis, the input
arrays, `out`, which caller arrays are shared memory, the function, and in which chunks it
raises `RunOnHostException` when not on the host. -/
structure Call (α : Type) where
  n : Nat
  ins : List Nat
  out : Option Nat
  shared : Nat → Bool
  f : BlockFun α
  ncore : Option Nat
  nchunk : Option Nat
  raises : Nat → Bool

/-- `distribute_jobs` (mproc.py:201-331) as a relation between initial memory, final memory
and the returned buffer; the pool branch may use any complete schedule.  `debug` is the
module flag DEBUG (mproc.py:294).  In the serial branch the code runs on the host, where
the function is expected not to raise (`serialRaises` says where it nevertheless does). -/
def DistributeJobs {α : Type} (cpu : Nat) (debug : Bool) (c : Call α)
    (serialRaises : Nat → Bool) (m m' : Cell → α) (res : Buf) : Prop :=
  ∃ nc nk, getNcoreNchunk cpu c.n c.ncore c.nchunk = .ok (nc, nk) ∧
    let chunks := (jobSlices c.n nk).map (Slc.indices c.n)
    let ins := sharedIns c.shared 0 c.ins
    let out := sharedOut c.shared c.ins c.out
    let m0 := prepare c.ins c.out m
    res = resultBuf c.shared c.ins c.out ∧
    if nc > 1 ∧ debug = false then
      ∃ sched, PoolDone ins out c.f chunks c.raises m0 sched ∧
        m' = copyBack c.n out res (poolRun ins out c.f chunks c.raises sched m0)
    else
      m' = copyBack c.n out res (serialRun ins out c.f chunks serialRaises m0)

/-- State of numexpr and the possible blocks using it: a program is a tree of nested
`with set_numexpr_threads(n)` blocks around bodies that may raise
(mproc.py:405-418; users e.g. normalize.py:127-148, corr.py:105-115). -/
inductive NeProg where
  | skip
  | raise
  | seq (p q : NeProg)
  | withThreads (n : Option Nat) (body : NeProg)

/-- mproc.py:407-412: number of threads requested by the context manager. -/
def neWanted (cpu : Nat) : Option Nat → Nat
  | none => cpu
  | some n => if n > cpu then cpu else n

/-- mproc.py:405-418: executes a program; the state is numexpr's thread count, the result is
the new thread count, the list of thread counts under which bodies ran, and whether an
exception is propagating.  `ne.set_num_threads` returns the old value; `__exit__` runs also
on exceptions and returns a falsy value, so the exception propagates. -/
def NeProg.exec (cpu : Nat) : NeProg → Nat → Nat × List Nat × Bool
  | .skip, t => (t, [t], false)
  | .raise, t => (t, [t], true)
  | .seq p q, t =>
    let r := p.exec cpu t
    if r.2.2 then r
    else
      let r' := q.exec cpu r.1
      (r'.1, r.2.1 ++ r'.2.1, r'.2.2)
  | .withThreads n body, t =>
    let old := t
    let r := body.exec cpu (neWanted cpu n)
    (old, r.2.1, r.2.2)

end Tomopy.Mproc
