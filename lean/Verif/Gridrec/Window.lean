import Verif.Gridrec.Value

/-!
# gridrec: the whole window table evaluated in exact arithmetic

The table has a fixed size, so these are complete evaluations, not samples.
-/

namespace Tomopy.Gridrec

theorem legendre_step : ∀ i < 512, legendre 20 coefs (((i + 1 : Nat) : ℚ) / ltbl) <
    legendre 20 coefs ((i : ℚ) / ltbl) := by decide +kernel

theorem legendre_zero_pos : 0 < legendre 20 coefs (0 : ℚ) := by decide +kernel

theorem legendre_last_pos : 0 < legendre 20 coefs (((512 : Nat) : ℚ) / ltbl) := by decide +kernel

end Tomopy.Gridrec
