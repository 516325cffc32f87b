import Verif.Wrap.Model

/-! Model of the two threads of `ufo_fbp` and `ufo_dfi` (source/tomopy/recon/wrappers.py:218-327): the thread that
runs the UFO scheduler, and the thread that hands over sinograms and fetches slices. -/

namespace Tomopy.Wrap

/-- Where the thread of `_process_data` is (`source/tomopy/recon/wrappers.py:222-241`): before the input buffer of
sinogram `i` (line 223), waiting for the output buffer (line 234), with the image (line 235), after `stop`, or ended
by an exception.  An exception ends the thread without a trace in the other thread (`threading.Thread`). -/
inductive UfoPc (I : Type) where
  | next (i : Nat)
  | sent (i : Nat)
  | got (i : Nat) (v : I)
  | stopped
  | raised

/-- The shared state (`source/tomopy/recon/wrappers.py:256-280`): input buffers that have been handed back, sinograms
and images in the three stages of the task graph, whether `input_task.stop()` has been called, whether `sched.run`
has returned, and the slices written so far (`none`: not written). -/
structure UfoSt (S I O : Type) where
  pc : UfoPc I
  free : Nat
  inQ : List S
  pipe : List I
  outQ : List I
  stop : Bool
  done : Bool
  slices : Nat → Option O

/-- The start (`source/tomopy/recon/wrappers.py:274-276`). -/
def ufoInit {S I O : Type} : UfoSt S I O := ⟨.next 0, 0, [], [], [], false, false, fun _ => none⟩

/-- One step of one of the threads (`source/tomopy/recon/wrappers.py:222-241, 276-278`) for `n` sinograms; `f` is what
the task graph computes, `crop` is lines 236-238.  UFO itself is not in the repository; taken from its documentation:
`get_input_buffer` and `get_output_buffer` wait until there is a buffer, the scheduler takes inputs in the order in
which they were released and hands their buffers back, images come out in that order, and `sched.run` returns when
the input task has been stopped and nothing is left in the graph. -/
inductive UfoStep {S I O : Type} (n : Nat) (sino : Nat → S) (f : S → I) (crop : I → Except PyErr O) :
    UfoSt S I O → UfoSt S I O → Prop
  | first (s) (hn : 0 < n) (h : s.pc = .next 0) :
      UfoStep n sino f crop s { s with pc := .sent 0, inQ := s.inQ ++ [sino 0] }
  | next (s) (i k) (hi : i + 1 < n) (h : s.pc = .next (i + 1)) (hk : s.free = k + 1) :
      UfoStep n sino f crop s { s with pc := .sent (i + 1), free := k, inQ := s.inQ ++ [sino (i + 1)] }
  | fetch (s) (i v rest) (h : s.pc = .sent i) (ho : s.outQ = v :: rest) :
      UfoStep n sino f crop s { s with pc := .got i v, outQ := rest }
  | write (s) (i v o) (h : s.pc = .got i v) (hc : crop v = .ok o) :
      UfoStep n sino f crop s { s with pc := .next (i + 1), slices := Function.update s.slices i (some o) }
  | fail (s) (i v e) (h : s.pc = .got i v) (hc : crop v = .error e) :
      UfoStep n sino f crop s { s with pc := .raised }
  | stop (s) (h : s.pc = .next n) : UfoStep n sino f crop s { s with pc := .stopped, stop := true }
  | take (s) (x rest) (hq : s.inQ = x :: rest) :
      UfoStep n sino f crop s { s with inQ := rest, free := s.free + 1, pipe := s.pipe ++ [f x] }
  | emit (s) (v rest) (hq : s.pipe = v :: rest) :
      UfoStep n sino f crop s { s with pipe := rest, outQ := s.outQ ++ [v] }
  | finish (s) (h : s.stop = true) (hd : s.done = false) (hi : s.inQ = []) (hp : s.pipe = []) :
      UfoStep n sino f crop s { s with done := true }

/-- `sched.run(g)` and `thread.join()` have returned (`source/tomopy/recon/wrappers.py:277-278`). -/
def UfoSt.Returned {S I O : Type} (s : UfoSt S I O) : Prop :=
  s.done = true ∧ (s.pc = .stopped ∨ s.pc = .raised)

/-- Executions (`source/tomopy/recon/wrappers.py:276-278`): `k` steps of the threads in any order. -/
inductive UfoRun {S I O : Type} (n : Nat) (sino : Nat → S) (f : S → I) (crop : I → Except PyErr O) :
    Nat → UfoSt S I O → Prop
  | init : UfoRun n sino f crop 0 ufoInit
  | step {k s s'} : UfoRun n sino f crop k s → UfoStep n sino f crop s s' → UfoRun n sino f crop (k + 1) s'

end Tomopy.Wrap
