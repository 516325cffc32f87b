import Verif.Fl.Ext
import Verif.Morph.Model

/-!
# `downsample` and `upsample` in `float` arithmetic
-/

namespace Tomopy.Fl

open Tomopy.Morph (Sampled downVisits upVisits upLoop newShape axisLen shapeAxis cAxis)

/-- `source/libtomo/misc/morph.c:50-122`: `out[a] += data[ind] / binsize; ind++` over the visits, the
division and the addition rounded to `float`; `binsize` is an `unsigned`, converted to `float`.  Checked
accesses (`none`: outside an array); machine integers do not overflow. -/
def downLoopF (inSize outSize bin : Nat) (data : Nat → F32) :
    List Nat → Nat → (Nat → F32) → Option (Nat → F32)
  | [], _, out => some out
  | a :: as, ind, out =>
    if ind < inSize ∧ a < outSize then
      downLoopF inSize outSize bin data as (ind + 1)
        (fun q => if q = a then F32.add (out q) (F32.div (data ind) (F32.round bin)) else out q)
    else none

/-- `source/tomopy/misc/morph.py:191-209, 233-252` `downsample` of a `float32` array for `level ≥ 0`:
the result array starts as `0. * np.ones(shape)`.  `none` inside: access outside an array. -/
def downsampleF (dx dy dz level : Nat) (axis : Int) (data : Nat → F32) :
    Except PyErr (Option (Sampled F32)) := do
  let ax ← shapeAxis axis
  let bin := 2 ^ level
  let sh := newShape dx dy dz ax (axisLen dx dy dz ax / bin)
  return (downLoopF (dx * dy * dz) (sh.1 * sh.2.1 * sh.2.2) bin data
    (downVisits dx dy dz bin (cAxis axis)) 0 (fun _ => .fin 0)).map fun o => ⟨sh, o⟩

/-- `source/tomopy/misc/morph.py:212-252` `upsample` of a `float32` array (`morph.c:124-193` copies). -/
def upsampleF (dx dy dz level : Nat) (axis : Int) (data : Nat → F32) :
    Except PyErr (Option (Sampled F32)) := do
  let ax ← shapeAxis axis
  let bin := 2 ^ level
  let sh := newShape dx dy dz ax (axisLen dx dy dz ax * bin)
  return (upLoop (dx * dy * dz) (sh.1 * sh.2.1 * sh.2.2) data
    (upVisits dx dy dz bin (cAxis axis)) 0 (fun _ => .fin 0)).map fun o => ⟨sh, o⟩

end Tomopy.Fl
