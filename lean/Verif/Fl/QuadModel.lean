import Verif.Fl.Round
import Verif.Ray.Model

/-!
# `calc_quadrant` with the types of the C code

`float` and `double` operations are rounded; conversions to `int32_t` are checked.
-/

set_option linter.unusedSectionVars false

namespace Tomopy.Fl

open Tomopy.Ray (cTrunc)

/-- The `double` nearest to `x`, ties to even, for numbers in the normal range: the type of the
constants of `source/libtomo/recon/utils.c:107-110`. -/
def fl64 (x : ℚ) : ℚ :=
  (rne (x / 2 ^ (Int.log 2 |x| - 52)) : ℚ) * 2 ^ (Int.log 2 |x| - 52)

/-- `M_PI` (used in `source/libtomo/recon/utils.c:107-110`): the `double` nearest to π. -/
def mPi : ℚ := 884279719003555 / 281474976710656

/-- `ipi_c` converted to `float` in `theta_p * ipi_c` (`source/libtomo/recon/utils.c:105-106`). -/
def ipiF : ℚ := fl 340870420

/-- `x * M_PI * ipi_c` in `double`, for a `float` constant `x`
(`source/libtomo/recon/utils.c:107,109,110`). -/
def piC (x : ℚ) : ℚ := fl64 (fl64 (x * mPi) * 340870420)

/-- Values of `int32_t` (`source/libtomo/recon/utils.c:106-107`). -/
def int32 (t : Int) : Bool := decide (-2147483648 ≤ t) && decide (t ≤ 2147483647)

/-- `theta_i = (int32_t)(theta_p * ipi_c)` (`source/libtomo/recon/utils.c:106`). -/
def thetaI (θ : ℚ) : Int := cTrunc (fl (θ * ipiF))

/-- `theta_i += (theta_i < 0) ? (2.0f * M_PI * ipi_c) : 0` (`source/libtomo/recon/utils.c:107`).
The sum is exact in `double`: it is a multiple of `2⁻²²` below `2³¹`. -/
def wrapI (t : Int) : Int := if t < 0 then cTrunc ((t : ℚ) + piC 2) else t

/-- `calc_quadrant` (`source/libtomo/recon/utils.c:90-113`); `none` is a conversion outside
`int32_t`, which is undefined. -/
def calcQuadrantF (θ : ℚ) : Option Int :=
  if int32 (thetaI θ) && int32 (wrapI (thetaI θ)) then
    some (if (0 ≤ wrapI (thetaI θ) ∧ (wrapI (thetaI θ) : ℚ) < piC (1 / 2)) ∨
             (piC 1 ≤ (wrapI (thetaI θ) : ℚ) ∧ (wrapI (thetaI θ) : ℚ) < piC (3 / 2)) then 1 else 0)
  else none

/-- `2.0f * (float) M_PI`, the divisor of `fmodf` (`source/libtomo/recon/art.c:95`,
`project.c:88`). -/
def twoPiF : ℚ := fl (2 * fl mPi)

end Tomopy.Fl
