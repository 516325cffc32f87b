import Mathlib.Data.Fintype.Basic
import Mathlib.Data.Fintype.Pi
import Mathlib.Logic.Function.Basic

/-! Model of the protocol around the stream of NPP in source/libtomo/accel/gpu/utils.cu:181-209,
250-255 and 263-291, 340-345 (`cuda_rotate_kernel`, both versions).

Simplifications: every access to the counter or to the stream of NPP (one for the whole process) is
one atomic step; the initialisation of the static variable `_first` (lines 187, 269) is in the initial
state, whose stream is arbitrary (both calls run before the threads of the same version go on: the int32
version is called by one thread only, before the threads of the iterations start). -/

namespace Tomopy.Npp

/-- Position of a thread in `cuda_rotate_kernel` (utils.cu:263-345). -/
inductive Pc where
  /-- outside -/
  | idle
  /-- before `nppGetStream() != stream` in the condition of the loop -/
  | look
  /-- before `_npp_stream_sync.load(...) == 0` in the condition of the loop -/
  | load
  /-- before `++_npp_stream_sync == 1` -/
  | inc
  /-- before `--_npp_stream_sync` in the loop -/
  | undo
  /-- before `nppSetStream(stream)`, `_decrement` set -/
  | set
  /-- behind the loop, before the comparison that throws; the flag is `_decrement` -/
  | verify (dec : Bool)
  /-- before the rotation is given to NPP -/
  | launch (dec : Bool)
  /-- before `if(_decrement) --_npp_stream_sync` -/
  | leave (dec : Bool)
  /-- `throw std::runtime_error("Error! Wrong stream!")` -/
  | thrown
  deriving DecidableEq

/-- The counter, the stream of NPP, the positions of `n` threads, and (not in the source) the
rotations started so far: thread, `_decrement`, stream they went to (utils.cu:61, 263-345). -/
structure St (n : Nat) where
  count : Int
  npp : Nat
  pc : Fin n → Pc
  log : List (Fin n × Bool × Nat)

variable {n : Nat}

/-- One step of thread `w`, whose stream is `str w` (utils.cu:263-345). -/
def step (str : Fin n → Nat) (s : St n) (w : Fin n) : St n :=
  match s.pc w with
  | .idle => { s with pc := Function.update s.pc w .look }
  | .look => { s with pc := Function.update s.pc w (if s.npp ≠ str w then .inc else .load) }
  | .load => { s with pc := Function.update s.pc w (if s.count = 0 then .inc else .verify false) }
  | .inc => { s with
      count := s.count + 1
      pc := Function.update s.pc w (if s.count + 1 = 1 then .set else .undo) }
  | .undo => { s with count := s.count - 1, pc := Function.update s.pc w .look }
  | .set => { s with npp := str w, pc := Function.update s.pc w (.verify true) }
  | .verify d => { s with
      pc := Function.update s.pc w (if s.npp ≠ str w then .thrown else .launch d) }
  | .launch d => { s with
      log := (w, d, s.npp) :: s.log
      pc := Function.update s.pc w (.leave d) }
  | .leave d => { s with
      count := if d then s.count - 1 else s.count
      pc := Function.update s.pc w .idle }
  | .thrown => s

/-- A schedule (utils.cu:263-345). -/
def exec (str : Fin n → Nat) (s : St n) (sched : List (Fin n)) : St n := sched.foldl (step str) s

/-- All threads outside, counter zero (utils.cu:61), any stream. -/
def init (n k : Nat) : St n := ⟨0, k, fun _ => .idle, []⟩

end Tomopy.Npp
