import Verif.Base
import Mathlib.Algebra.BigOperators.Group.Finset.Basic
import Mathlib.Algebra.Order.BigOperators.Group.Finset
import Mathlib.Data.Fintype.Card
import Mathlib.Data.Fintype.BigOperators
import Mathlib.Logic.Function.Basic

/-! Model of the multi-GPU driver of source/tomopy/recon/wrappers.py: `lprec` and `lpmultigpu`.

The executor's threads are interleaved at the granularity of single reads and writes of the shared
flags.  Simplifications: the reconstruction methods of the `lprec` package are a parameter that
either ends or raises; the executor hands out the chunks in order, each one once. -/

namespace Tomopy.Gpu

/-! ### Chunks -/

/-- wrappers.py:406-411 `Nssimgpu` for detectors of `N` pixels, `Ns` slices and `ngpus` GPUs. -/
def perGpu (N Ns ngpus : Nat) : Except PyErr Nat :=
  if N = 0 ∨ ngpus = 0 then .error .zeroDivision
  else .ok (min (2 ^ 24 / (N * N)) ((Ns + ngpus - 1) / ngpus))

/-- wrappers.py:420-422 `ids_list` with `S` slices per chunk: start and end of every range. -/
def idsList (Ns S : Nat) : Except PyErr (List (Nat × Nat)) :=
  if S = 0 then .error .zeroDivision
  else .ok ((List.range ((Ns + S - 1) / S)).map fun k => (k * S, min Ns ((k + 1) * S)))

/-- wrappers.py:435-438: rows of `recon` into which the results are written, by running `shift`
(`start` is the value of `shift` before the list). -/
def writeRows : Nat → List (Nat × Nat) → List (Nat × Nat)
  | _, [] => []
  | shift, c :: cs => (shift, shift + (c.2 - c.1)) :: writeRows (shift + (c.2 - c.1)) cs

/-! ### Threads -/

/-- Where a thread is in wrappers.py:443-462 `lpmultigpu`. -/
inductive Pc where
  /-- waiting for a chunk -/
  | idle
  /-- has a chunk, before `lock.acquire()` (line 449) -/
  | want (c : Nat)
  /-- holds the lock, about to look at flag `k` (lines 450-451) -/
  | scan (c k : Nat)
  /-- has seen that flag `k` is 0 (line 451) -/
  | see (c k : Nat)
  /-- has set flag `k`, holds the lock (lines 452-455) -/
  | hold (c k : Nat)
  /-- reconstructs on GPU `k` (lines 456-459) -/
  | run (c k : Nat)
  deriving DecidableEq

/-- Shared state; `n` is the number of GPUs and of threads (wrappers.py:432-434). -/
structure St (n : Nat) where
  /-- chunks not yet taken -/
  queue : List Nat
  /-- position of every thread -/
  pc : Fin n → Pc
  /-- owner of the lock -/
  lock : Option (Fin n)
  /-- `BUSYGPUS` -/
  busy : Nat → Bool
  /-- chunks processed and the index of their GPU -/
  done : List (Nat × Nat)
  /-- chunks that ended with an exception -/
  failed : List Nat

/-- wrappers.py:430-434: the start. -/
def init (n : Nat) (chunks : List Nat) : St n :=
  ⟨chunks, fun _ => .idle, none, fun _ => false, [], []⟩

/-- One step of one thread (wrappers.py:449-462). -/
inductive Step {n : Nat} (raises : Nat → Bool) : St n → St n → Prop
  /-- the executor gives a chunk to a thread (line 436) -/
  | take (s : St n) (w : Fin n) (c : Nat) (q : List Nat) : s.pc w = .idle → s.queue = c :: q →
      Step raises s { s with queue := q, pc := Function.update s.pc w (.want c) }
  /-- line 449 -/
  | acquire (s : St n) (w : Fin n) (c : Nat) : s.pc w = .want c → s.lock = none →
      Step raises s { s with lock := some w, pc := Function.update s.pc w (.scan c 0) }
  /-- lines 450-451: the flag is set -/
  | skip (s : St n) (w : Fin n) (c k : Nat) : s.pc w = .scan c k → k < n → s.busy k = true →
      Step raises s { s with pc := Function.update s.pc w (.scan c (k + 1)) }
  /-- lines 450-451: the flag is not set -/
  | look (s : St n) (w : Fin n) (c k : Nat) : s.pc w = .scan c k → k < n → s.busy k = false →
      Step raises s { s with pc := Function.update s.pc w (.see c k) }
  /-- line 452 -/
  | mark (s : St n) (w : Fin n) (c k : Nat) : s.pc w = .see c k →
      Step raises s { s with busy := Function.update s.busy k true,
                             pc := Function.update s.pc w (.hold c k) }
  /-- line 455 -/
  | release (s : St n) (w : Fin n) (c k : Nat) : s.pc w = .hold c k →
      Step raises s { s with lock := none, pc := Function.update s.pc w (.run c k) }
  /-- lines 455-456 after a search without success: `gpu_id` is not bound -/
  | unbound (s : St n) (w : Fin n) (c : Nat) : s.pc w = .scan c n →
      Step raises s { s with lock := none, pc := Function.update s.pc w .idle,
                             failed := c :: s.failed }
  /-- lines 459-462 -/
  | finish (s : St n) (w : Fin n) (c k : Nat) : s.pc w = .run c k → raises c = false →
      Step raises s { s with busy := Function.update s.busy k false,
                             pc := Function.update s.pc w .idle, done := (c, k) :: s.done }
  /-- line 459: the method raises, line 460 is not reached -/
  | fail (s : St n) (w : Fin n) (c k : Nat) : s.pc w = .run c k → raises c = true →
      Step raises s { s with pc := Function.update s.pc w .idle, failed := c :: s.failed }

/-- Executions (wrappers.py:434-438): any number of steps. -/
inductive Steps {n : Nat} (raises : Nat → Bool) : St n → St n → Prop
  | refl (s : St n) : Steps raises s s
  | tail (s t u : St n) : Steps raises s t → Step raises t u → Steps raises s u

end Tomopy.Gpu
