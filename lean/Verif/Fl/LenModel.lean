import Verif.Fl.Model
import Verif.Iter.Model

/-!
# The segments of the ray tracer in `float` arithmetic, with their lengths
-/

set_option linter.unusedSectionVars false

namespace Tomopy.Fl

open Tomopy.Ray (Caps capsRecon trimLoop sortIntersections)
open Tomopy.Iter (Geom)

/-- `sqrtf` (`source/libtomo/recon/utils.c:291`), which IEEE 754 rounds correctly.  The root is cut at
`2⁻²⁰⁰`, finer than floats and the middles between them; if it is not exact, the rest is replaced by
half a unit of that grid, which does not change the rounding. -/
def sqrtF (x : ℚ) : ℚ :=
  if ((Nat.sqrt ⌊x * 4 ^ 200⌋₊ : ℚ) / 2 ^ 200) ^ 2 = x then fl ((Nat.sqrt ⌊x * 4 ^ 200⌋₊ : ℚ) / 2 ^ 200)
  else fl ((Nat.sqrt ⌊x * 4 ^ 200⌋₊ : ℚ) / 2 ^ 200 + 1 / 2 ^ 201)

/-- `dist[n]` for two consecutive points (`source/libtomo/recon/utils.c:268-293`).  The compiler may fuse
one of the squares with the addition. -/
def lenF (k : Con) (P Q : ℚ × ℚ) : ℚ :=
  sqrtF (k.add (fl (Q.1 - P.1) * fl (Q.1 - P.1)) (fl (Q.2 - P.2) * fl (Q.2 - P.2)))

/-- `calc_dist` (`source/libtomo/recon/utils.c:263-328`): index and length of every segment. -/
def calcSegsF (k : Con) (rx rz : Nat) : List (ℚ × ℚ) → List (Int × ℚ)
  | [] => []
  | [_] => []
  | P :: Q :: rest =>
    (pixelIndexF rz P.2 Q.2 + pixelIndexF rx P.1 Q.1 * (rz : Int), lenF k P Q) ::
      calcSegsF k rx rz (Q :: rest)

/-- `calc_coords; trim_coords; sort_intersections; calc_dist` for one ray
(`source/libtomo/recon/art.c:104-123`); `none` is a write outside one of the buffers. -/
def segsF (m : Mode) (k : Con) (caps : Caps) (quadrant : Int) (rx rz : Nat) (yi sn cs : ℚ) :
    Option (List (Int × ℚ)) := do
  let as ← trimLoop caps.ab (aPointF rx rz (coordxF m rz (rayXF rx rz) yi sn cs)) (rz + 1)
  let bs ← trimLoop caps.ab (bPointF rx rz (coordyF m rx (rayXF rx rz) yi sn cs)) (rx + 1)
  if as.length + bs.length ≤ caps.coor ∧ as.length + bs.length - 1 ≤ caps.seg then
    some (calcSegsF k rx rz (sortIntersections quadrant as bs))
  else none

/-- What the reconstruction functions see of the geometry: the rays of slice `s` with centre `center s`,
projection `p` with quadrant, sine and cosine, detector pixel `d`
(`source/libtomo/recon/bart.c:88-145`, `osem.c:89-146`, `fbp.c:79-119`). -/
def geomF (m : Mode) (k : Con) (rx rz dx : Nat) (center : Nat → ℚ) (quadrant : Nat → Int)
    (sn cs : Nat → ℚ) : Geom ℚ := fun s p d =>
  ((segsF m k (capsRecon rx rz) (quadrant p) rx rz (rayYF dx d (movF dx (center s))) (sn p) (cs p)).getD
    []).map fun e => (e.1.toNat, e.2)

end Tomopy.Fl
