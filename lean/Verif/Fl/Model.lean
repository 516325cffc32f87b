import Verif.Fl.Round
import Verif.Ray.Model

/-!
# The ray tracer of libtomo in `float` arithmetic

The same functions as `Verif/Ray/Model.lean`, with every operation rounded to `binary32`.  The
compiler may contract `a * b + c` into one fused operation (the default of GCC with the option
`-march=native` of `cmake/Modules/BuildSettings.cmake:125,154`), so the model has a `Mode` that
says which products are rounded; theorems quantify over it.  Lengths (`sqrtf`) are not part of
this model, only the buffers and the pixel indices.
-/

set_option linter.unusedSectionVars false

namespace Tomopy.Fl

open Tomopy.Ray (Caps capsRecon capsProject trimLoop sortIntersections cTrunc)

/-- `0.01f` (`source/libtomo/recon/utils.c:81,83,149,150`). -/
def c01 : ℚ := fl (1 / 100)

/-- `-ry * 0.5f + i` (`source/libtomo/recon/utils.c:70-78`); both integers are converted. -/
def gridF (r i : Nat) : ℚ := fl (fl (fl (-(r : ℚ)) * (1 / 2)) + fl i)

/-- `((float) num_pixels - 1) * 0.5f - center` (`source/libtomo/recon/utils.c:80`). -/
def mov0F (num_pixels : Nat) (center : ℚ) : ℚ := fl (fl (fl (fl num_pixels - 1) * (1 / 2)) - center)

/-- `*mov` of `preprocessing` (`source/libtomo/recon/utils.c:80-85`).  The comparison and the
addition of `0.5` are done in `double`: the difference with `floor` and the sum have at most 53
significant bits, or are too close to `1` or `0.5` for the difference to matter. -/
def movF (num_pixels : Nat) (center : ℚ) : ℚ :=
  fl ((if mov0F num_pixels center - ⌊mov0F num_pixels center⌋ < c01
    then fl (mov0F num_pixels center + c01) else mov0F num_pixels center) + 1 / 2)

/-- `0.5f * (1 - dx) + d + mov` (`source/libtomo/recon/art.c:105`, `project.c:97`). -/
def rayYF (dx d : Nat) (mv : ℚ) : ℚ := fl (fl (fl ((1 / 2) * fl (1 - dx)) + fl d) + mv)

/-- `xi = -ngridx - ngridy` (`source/libtomo/recon/art.c:104`, `project.c:96`). -/
def rayXF (rx rz : Nat) : ℚ := fl (-(rx : ℚ) - rz)

/-- How a sum or difference of two products is compiled: both products are rounded, or one of them
is fused with the addition (`source/libtomo/recon/utils.c:121-124`). -/
inductive Con where
  | no
  | left
  | right
  deriving DecidableEq

/-- Difference of the products `x` and `y` (`source/libtomo/recon/utils.c:121,123`). -/
def Con.sub : Con → ℚ → ℚ → ℚ
  | .no, x, y => fl (fl x - fl y)
  | .left, x, y => fl (x - fl y)
  | .right, x, y => fl (fl x - y)

/-- Sum of the products `x` and `y` (`source/libtomo/recon/utils.c:122,124`). -/
def Con.add : Con → ℚ → ℚ → ℚ
  | .no, x, y => fl (fl x + fl y)
  | .left, x, y => fl (x + fl y)
  | .right, x, y => fl (fl x + y)

/-- `t * w + a`, fused or not (`source/libtomo/recon/utils.c:131,136`). -/
def mulAdd (fused : Bool) (t w a : ℚ) : ℚ := if fused then fl (t * w + a) else fl (fl (t * w) + a)

/-- The choices of the compiler in `calc_coords` (`source/libtomo/recon/utils.c:121-137`). -/
structure Mode where
  sx : Con
  sy : Con
  dx : Con
  dy : Con
  fx : Bool
  fy : Bool

/-- `srcx` (`source/libtomo/recon/utils.c:121`). -/
def srcxF (k : Con) (xi yi sn cs : ℚ) : ℚ := k.sub (xi * cs) (yi * sn)
/-- `srcy` (`source/libtomo/recon/utils.c:122`). -/
def srcyF (k : Con) (xi yi sn cs : ℚ) : ℚ := k.add (xi * sn) (yi * cs)
/-- `detx` (`source/libtomo/recon/utils.c:123`). -/
def detxF (k : Con) (xi yi sn cs : ℚ) : ℚ := k.sub (-xi * cs) (yi * sn)
/-- `dety` (`source/libtomo/recon/utils.c:124`). -/
def detyF (k : Con) (xi yi sn cs : ℚ) : ℚ := k.add (-xi * sn) (yi * cs)

/-- A division of floats (`source/libtomo/recon/utils.c:125-126`): `none` is an infinite result or
NaN.  A coordinate computed from it is infinite or NaN and fails the tests of `trim_coords`. -/
def divF (p q : ℚ) : Option ℚ :=
  if q = 0 then none else if |fl (p / q)| < 2 ^ 128 then some (fl (p / q)) else none

/-- `srcx - detx` (`source/libtomo/recon/utils.c:125-126`). -/
def runX (m : Mode) (xi yi sn cs : ℚ) : ℚ := fl (srcxF m.sx xi yi sn cs - detxF m.dx xi yi sn cs)
/-- `srcy - dety` (`source/libtomo/recon/utils.c:125-126`). -/
def runY (m : Mode) (xi yi sn cs : ℚ) : ℚ := fl (srcyF m.sy xi yi sn cs - detyF m.dy xi yi sn cs)

/-- `coordx[n] = islope * (gridy[n] - srcy) + srcx` (`source/libtomo/recon/utils.c:126-132`).
A product above the range of `float` is infinite in C and at least `2¹²⁸` here; neither passes the
tests of `trim_coords`. -/
def coordxF (m : Mode) (rz : Nat) (xi yi sn cs : ℚ) (n : Nat) : Option ℚ :=
  (divF (runX m xi yi sn cs) (runY m xi yi sn cs)).map fun t =>
    mulAdd m.fx t (fl (gridF rz n - srcyF m.sy xi yi sn cs)) (srcxF m.sx xi yi sn cs)

/-- `coordy[n] = slope * (gridx[n] - srcx) + srcy` (`source/libtomo/recon/utils.c:125,134-137`). -/
def coordyF (m : Mode) (rx : Nat) (xi yi sn cs : ℚ) (n : Nat) : Option ℚ :=
  (divF (runY m xi yi sn cs) (runX m xi yi sn cs)).map fun t =>
    mulAdd m.fy t (fl (gridF rx n - srcxF m.sx xi yi sn cs)) (srcyF m.sy xi yi sn cs)

/-- The interval test of `trim_coords` (`source/libtomo/recon/utils.c:149-150,154`,
`162-163,167`). -/
def insideF (r : Nat) (v : ℚ) : Bool :=
  decide (fl (gridF r 0 + c01) ≤ v) && decide (v ≤ fl (gridF r r - c01))

/-- The crossing with the `n`-th horizontal line, if it is kept
(`source/libtomo/recon/utils.c:154-157`). -/
def aPointF (rx rz : Nat) (cx : Nat → Option ℚ) (n : Nat) : Option (ℚ × ℚ) :=
  match cx n with
  | some x => if insideF rx x then some (x, gridF rz n) else none
  | none => none

/-- The crossing with the `n`-th vertical line, if it is kept
(`source/libtomo/recon/utils.c:167-170`). -/
def bPointF (rx rz : Nat) (cy : Nat → Option ℚ) (n : Nat) : Option (ℚ × ℚ) :=
  match cy n with
  | some y => if insideF rz y then some (gridF rx n, y) else none
  | none => none

/-- `_x1 = 0.5f * (coorx[n + 1] + coorx[n]) + 0.5f * ry`
(`source/libtomo/recon/utils.c:306-307,314-315`).  Fusing the products changes nothing: both are
exact, unless the sum is below the normal range, where the result is `0.5f * ry` in any case. -/
def midF (r : Nat) (v0 v1 : ℚ) : ℚ := fl (fl ((1 / 2) * fl (v1 + v0)) + fl ((1 / 2) * fl r))

/-- `_indx[n]` (`source/libtomo/recon/utils.c:308-309,316-317`): the integer part is converted to
`float`, compared, and the difference converted back. -/
def pixelIndexF (r : Nat) (v0 v1 : ℚ) : Int :=
  cTrunc (fl (fl (cTrunc (midF r v0 v1)) -
    (if fl (cTrunc (midF r v0 v1)) > midF r v0 v1 then 1 else 0)))

/-- The second half of `calc_dist` (`source/libtomo/recon/utils.c:295-323`): the pixel index of
every segment. -/
def calcIndF (rx rz : Nat) : List (ℚ × ℚ) → List Int
  | [] => []
  | [_] => []
  | P :: Q :: rest =>
    (pixelIndexF rz P.2 Q.2 + pixelIndexF rx P.1 Q.1 * (rz : Int)) :: calcIndF rx rz (Q :: rest)

/-- The sequence `calc_coords; trim_coords; sort_intersections; calc_dist` for one ray
(`source/libtomo/recon/art.c:104-123`, `project.c:96-114`) in `float` arithmetic.  The result is
the list of `indi[n]`; `none` is a write outside one of the buffers. -/
def traceF (m : Mode) (caps : Caps) (quadrant : Int) (rx rz : Nat) (yi sn cs : ℚ) :
    Option (List Int) := do
  let as ← trimLoop caps.ab (aPointF rx rz (coordxF m rz (rayXF rx rz) yi sn cs)) (rz + 1)
  let bs ← trimLoop caps.ab (bPointF rx rz (coordyF m rx (rayXF rx rz) yi sn cs)) (rx + 1)
  if as.length + bs.length ≤ caps.coor ∧ as.length + bs.length - 1 ≤ caps.seg then
    some (calcIndF rx rz (sortIntersections quadrant as bs))
  else none

end Tomopy.Fl
