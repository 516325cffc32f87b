/-
Shared-memory programs and their interleavings.

This file models no single function of /repo; it is the execution model used for every
parallel construct of /repo:
* `mp.Pool.map_async` in source/tomopy/util/mproc.py:295-321 (processes on shared memory),
* `ThreadPoolExecutor` in source/tomopy/recon/algorithm.py:450-458,
* `#pragma omp parallel for` loops in source/libtomo/misc/median_filt3d.c,
  source/libtomo/misc/inpainter.c and source/libtomo/prep/stripes_detect3d.c.

Simplification: memory is sequentially consistent and single reads/writes of one cell are
atomic (weak memory effects and torn writes are not modelled).
-/
namespace Tomopy.Par

variable {L V : Type}

/-- A sequential worker program over memory cells `L` holding values `V`; `read` may branch
on the value read.  Execution model only (see file header for the parallel code of /repo
it stands for, e.g. mproc.py:368-386 `_arg_parser`). -/
inductive Prog (L V : Type) where
  | done : Prog L V
  | read (l : L) (k : V → Prog L V) : Prog L V
  | write (l : L) (v : V) (k : Prog L V) : Prog L V

/-- Store `v` in cell `l` (a single memory write; mproc.py:384 `outslice[:] = result[:]`
does one per element). -/
def upd [DecidableEq L] (m : L → V) (l : L) (v : V) : L → V :=
  fun x => if x = l then v else m x

/-- Run one worker program alone, to the end (mproc.py:325-326, the serial branch). -/
def Prog.run [DecidableEq L] : Prog L V → (L → V) → (L → V)
  | .done, m => m
  | .read l k, m => (k (m l)).run m
  | .write l v k, m => k.run (upd m l v)

/-- One atomic action of a worker program on the memory (scheduling unit of the operating
system for mproc.py:295-321). -/
def Prog.step [DecidableEq L] : Prog L V → (L → V) → Prog L V × (L → V)
  | .done, m => (.done, m)
  | .read l k, m => (k (m l), m)
  | .write l v k, m => (k, upd m l v)

/-- All cells the program may read lie in `R`, all cells it may write lie in `W`, whatever
values it reads (used to state which part of the arrays a worker of mproc.py:368-386
touches). -/
def Prog.Within (R W : L → Prop) : Prog L V → Prop
  | .done => True
  | .read l k => R l ∧ ∀ v, (k v).Within R W
  | .write l _ k => W l ∧ k.Within R W

/-- Configuration of a running pool: remaining program of each worker task and the memory
(mproc.py:295-321). -/
structure Config (ι L V : Type) where
  tasks : ι → Prog L V
  mem : L → V

/-- The scheduler picks task `i` and lets it do one atomic action (mproc.py:295-321). -/
def Config.step {ι : Type} [DecidableEq ι] [DecidableEq L]
    (c : Config ι L V) (i : ι) : Config ι L V :=
  let r := (c.tasks i).step c.mem
  { tasks := fun j => if j = i then r.1 else c.tasks j, mem := r.2 }

/-- Execute a schedule, i.e. an arbitrary finite sequence of scheduling decisions
(mproc.py:295-321). -/
def Config.exec {ι : Type} [DecidableEq ι] [DecidableEq L]
    (c : Config ι L V) (sched : List ι) : Config ι L V :=
  sched.foldl Config.step c

/-- All tasks have run to completion (`res.get(); p.join()`, mproc.py:315-318). -/
def Config.Finished {ι : Type} (c : Config ι L V) : Prop :=
  ∀ i, c.tasks i = .done

/-- A worker that reads the cells `rs` in order and then behaves as `k` on the list of the
values read (mproc.py:377 builds the argument blocks this way). -/
def Prog.readAll : List L → (List V → Prog L V) → Prog L V
  | [], k => k []
  | l :: ls, k => .read l fun v => Prog.readAll ls fun vs => k (v :: vs)

/-- A worker that performs the given writes in order (mproc.py:382-384). -/
def Prog.writeAll : List (L × V) → Prog L V
  | [] => .done
  | (l, v) :: ws => .write l v (Prog.writeAll ws)

end Tomopy.Par
