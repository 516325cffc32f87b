import Verif.Fl.Ext

/-!
# `normalize` in `float` arithmetic

Model of `source/tomopy/prep/normalize.py:140-164` with rounding, infinities and NaN.
-/

set_option linter.unusedSectionVars false

namespace Tomopy.Fl

/-- An order in which numpy adds the frames of a pixel (`source/tomopy/prep/normalize.py:147-148`):
one after the other along the first axis, or pairwise if the images have one pixel. -/
inductive SumTree where
  | leaf (x : ℚ)
  | node (l r : SumTree)

/-- The frames (`source/tomopy/prep/normalize.py:147-148`). -/
def SumTree.frames : SumTree → List ℚ
  | .leaf x => [x]
  | .node l r => l.frames ++ r.frames

/-- The sum in `float` (`source/tomopy/prep/normalize.py:147-148`, `dtype=np.float32`). -/
def SumTree.sumF : SumTree → F32
  | .leaf x => .fin x
  | .node l r => F32.add l.sumF r.sumF

/-- Depending on its version numpy divides the sum by the number of frames in `float` (`r x = x`) or
in `double` and converts to `float` (`source/tomopy/prep/normalize.py:147-148`): `r` is the rounding
before the last one. -/
structure Before (r : ℚ → ℚ) : Prop where
  mono : ∀ x y, x ≤ y → r x ≤ r y
  exact : ∀ z : ℤ, |z| ≤ 2 ^ 24 → r z = z
  near : ∀ x, |r x - x| ≤ |x| / 2 ^ 53 + 1 / 2 ^ 200

/-- `np.mean(frames, axis=0, dtype=np.float32)` for one pixel
(`source/tomopy/prep/normalize.py:147-148`). -/
def meanF (r : ℚ → ℚ) (t : SumTree) : F32 :=
  match t.sumF with
  | .fin s => F32.round (r (s / t.frames.length))
  | x => x

/-- `x - y` (`source/tomopy/prep/normalize.py:157,159`). -/
def F32.sub : F32 → F32 → F32
  | x, .fin b => F32.add x (.fin (-b))
  | x, .inf s => F32.add x (.inf (!s))
  | x, .nan => F32.add x .nan

/-- `x < y` (`source/tomopy/prep/normalize.py:158,163`); false with NaN. -/
def F32.lt : F32 → F32 → Bool
  | .fin a, .fin b => decide (a < b)
  | .fin _, .inf t => !t
  | .inf s, .fin _ => s
  | .inf s, .inf t => s && !t
  | _, _ => false

/-- `l = np.float32(1e-6)` (`source/tomopy/prep/normalize.py:141`). -/
def lF : ℚ := fl (1 / 1000000)

/-- One pixel (`source/tomopy/prep/normalize.py:157-163`): raw value `a`, averages `F` and `D`. -/
def normPixF (cutoff : Option ℚ) (a F D : F32) : F32 :=
  let denom := F32.sub F D                                                      -- 157
  let denom := if F32.lt denom (.fin lF) then .fin lF else denom                 -- 158
  let out := F32.sub a D                                                        -- 159
  let out := F32.div out denom                                                  -- 160
  match cutoff with
  | none => out
  | some c =>
    let c := F32.round c                                                        -- 162
    if F32.lt c out then c else out                                             -- 163

end Tomopy.Fl
