import Mathlib.Algebra.Group.Basic
import Mathlib.Logic.Function.Basic

/-! Model of the order in which the device runs what one GPU iteration of mlem and sirt gives it
(source/libtomo/accel/gpu/mlem.cu:201-234, source/libtomo/accel/gpu/sirt.cu:198-231).

Simplifications: only the operations on `update` and `recon` are modelled; the chain rotate, pixels
kernel, rotate, `cuda_atomic_sum_kernel` of one projection (one stream, mlem.cu:136-158) is one
operation, and operations of different streams do not overlap (with overlap single pixels can be
affected in different ways).  The work given by the threads of the pool arrives in some order, any one;
the additional `stream_sync` of a worker stream at the start of each projection (mlem.cu:125), which
only delays the host, is left out. -/

namespace Tomopy.Stream

/-- Operations on the main stream: `gpu_memset(update, 0, …)` (mlem.cu:212, sirt.cu:209) and the update
kernel (mlem.cu:228, sirt.cu:225). -/
inductive MOp where
  | zero
  | apply
  deriving DecidableEq

/-- What the host does: `stream_sync` of the main stream (mlem.cu:209, 225), of worker stream `i`
(data.hh:448-453), `issue` an operation to the main stream, or the work of projection `p` to worker
stream `i` (mlem.cu:136-158). -/
inductive Cmd (m : Nat) (P : Type) where
  | syncMain
  | syncWorker (i : Fin m)
  | issueMain (o : MOp)
  | issue (i : Fin m) (p : P)

/-- Host program, queues of the streams, `update`, `recon` (mlem.cu:181-201), and (not in the source) the
number of projections added while a `memset` was still waiting. -/
structure Conf (m : Nat) (P V : Type) where
  todo : List (Cmd m P)
  main : List MOp
  work : Fin m → List P
  update : V
  recon : V
  wiped : Nat

variable {m : Nat} {P V : Type} [AddCommMonoid V]

/-- One step of the host or of one stream (mlem.cu:201-234, utils.hh:417-421).  `c p x` is what
projection `p` adds for the reconstruction `x`, `f x u` the result of the update kernel.  `sync`
waits until the stream is empty; the streams of the workers are created with `cudaStreamNonBlocking`
(data.hh:349), so that no order between the streams is kept otherwise. -/
inductive Step (c : P → V → V) (f : V → V → V) : Conf m P V → Conf m P V → Prop where
  | syncMain (t) (work) (u x : V) (k) :
      Step c f ⟨.syncMain :: t, [], work, u, x, k⟩ ⟨t, [], work, u, x, k⟩
  | syncWorker (i) (t) (main) (work : Fin m → List P) (u x : V) (k) (h : work i = []) :
      Step c f ⟨.syncWorker i :: t, main, work, u, x, k⟩ ⟨t, main, work, u, x, k⟩
  | issueMain (o) (t) (main) (work) (u x : V) (k) :
      Step c f ⟨.issueMain o :: t, main, work, u, x, k⟩ ⟨t, main ++ [o], work, u, x, k⟩
  | issue (i p) (t) (main) (work : Fin m → List P) (u x : V) (k) :
      Step c f ⟨.issue i p :: t, main, work, u, x, k⟩
        ⟨t, main, Function.update work i (work i ++ [p]), u, x, k⟩
  | zero (t) (main) (work) (u x : V) (k) :
      Step c f ⟨t, .zero :: main, work, u, x, k⟩ ⟨t, main, work, 0, x, k⟩
  | apply (t) (main) (work) (u x : V) (k) :
      Step c f ⟨t, .apply :: main, work, u, x, k⟩ ⟨t, main, work, u, f x u, k⟩
  | add (i p) (r) (t) (main) (work : Fin m → List P) (u x : V) (k) (h : work i = p :: r) :
      Step c f ⟨t, main, work, u, x, k⟩
        ⟨t, main, Function.update work i r, u + c p x, x, if MOp.zero ∈ main then k + 1 else k⟩

/-- Any number of steps (mlem.cu:201-234). -/
inductive Steps (c : P → V → V) (f : V → V → V) : Conf m P V → Conf m P V → Prop where
  | refl (s) : Steps c f s s
  | tail {s t u} : Steps c f s t → Step c f t u → Steps c f s u

/-- `GpuData::sync` (data.hh:448-453). -/
def syncAll (m : Nat) (P : Type) : List (Cmd m P) := (List.finRange m).map .syncWorker

/-- One iteration (mlem.cu:208-230, sirt.cu:205-227); `jobs` are the projections with the stream each
one goes to, in the order in which they arrive.  In a debug build `gpu_memset` ends with
`cudaStreamSynchronize` (macros.hh:339-356, utils.hh:420). -/
def iteration (debug : Bool) (jobs : List (Fin m × P)) : List (Cmd m P) :=
  .syncMain :: .issueMain .zero :: (if debug then [.syncMain] else []) ++ syncAll m P ++
    jobs.map (fun j => .issue j.1 j.2) ++ syncAll m P ++ [.syncMain, .issueMain .apply]

/-- The loop over the iterations (mlem.cu:201-234). -/
def program (debug : Bool) : List (List (Fin m × P)) → List (Cmd m P)
  | [] => []
  | a :: its => iteration debug a ++ program debug its

/-- Before the loop: nothing is waiting (`gpu_malloc_and_memset` and the copies before the loop,
mlem.cu:186-196, are followed by the `sync` of the first iteration). -/
def start (debug : Bool) (its : List (List (Fin m × P))) (u x : V) : Conf m P V :=
  ⟨program debug its, [], fun _ => [], u, x, 0⟩

/-- Everything done: the copy to the CPU (mlem.cu:237) follows on the main stream. -/
def Conf.Done (s : Conf m P V) : Prop := s.todo = [] ∧ s.main = [] ∧ ∀ i, s.work i = []

end Tomopy.Stream
