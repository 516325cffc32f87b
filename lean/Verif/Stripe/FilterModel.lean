import Verif.Stripe.SortModel
import Verif.Phase.Model
import Mathlib.Analysis.SpecialFunctions.Trigonometric.Basic

/-! Model of the filtering-based stripe removal, source/tomopy/prep/stripe.py:437-517.

Simplifications: real numbers instead of floating point; `fft` and `ifft` (util/misc.py:117-150) are
the discrete Fourier transform; `sigma` is not zero. -/
namespace Tomopy.Stripe
open Phase (rot)

noncomputable section

/-- `fft` of a row of `L` numbers (stripe.py:498, 130). -/
def dft (L : Nat) (x : Nat → ℂ) (k : Nat) : ℂ := ∑ j ∈ Finset.range L, x j * rot L (-(j * k))

/-- `ifft` of a row of `L` numbers (stripe.py:498, 139). -/
def idft (L : Nat) (y : Nat → ℂ) (n : Nat) : ℂ := (∑ k ∈ Finset.range L, y k * rot L (n * k)) / L

/-- stripe.py:478-480 `_create_1d_window`, `scipy.signal.windows.gaussian`: symmetric window of `L`
points about `(L - 1) / 2`. -/
def gaussWindow (L : Nat) (sigma : ℝ) (k : Nat) : ℝ :=
  Real.exp (-(((k : ℝ) - ((L : ℝ) - 1) / 2) ^ 2 / (2 * sigma ^ 2)))

/-- stripe.py:483-485 `_create_listsign`. -/
def listSign (j : Nat) : ℝ := (-1) ^ j

/-- `np.pad(·, pad, mode='reflect')` (stripe.py:493): which of the `n` elements is at place `j` of
the padded row; needs `pad < n`. -/
def reflectSrc (n pad j : Nat) : Nat :=
  if j < pad then pad - j else if j < pad + n then j - pad else (2 * (n - 1) + pad) - j

/-- stripe.py:507: `int(0.1 * n)` is `n / 10` rounded down, as the double nearest to 0.1 exceeds it
by less than one part in 10^17. -/
def filterPad (n : Nat) : Nat := min 150 (n / 10)

/-- stripe.py:496-498, one column of the sinogram (`n` angles): low-pass part at angle `t`. -/
def smoothColumn (n pad : Nat) (w : Nat → ℝ) (x : Nat → ℝ) (t : Nat) : ℝ :=
  let L := n + 2 * pad
  let spec := dft L fun j => ((x (reflectSrc n pad j) * listSign j : ℝ) : ℂ)
  ((idft L fun k => spec k * (w k : ℂ)) (t + pad) * ((listSign (t + pad) : ℝ) : ℂ)).re

/-- stripe.py:488-503 `_rs_filter`; `X t i` is the sinogram at angle `t < nrow` and column
`i < ncol`. -/
def rsFilterFft (ag : Argsort ℝ) (nrow ncol pad : Nat) (w : Nat → ℝ) (size dim : Nat)
    (X : Nat → Nat → ℝ) (t i : Nat) : ℝ :=
  let smooth := fun t i => smoothColumn nrow pad w (fun t => X t i) t      -- 495-498
  let sharp := X t i - smooth t i                                          -- 499
  rsSort ag nrow ncol size dim smooth t i + sharp                          -- 501-503

/-- stripe.py:506-517 on a block of slices (angle, column), worked on in place. -/
def removeStripeBasedFiltering (ag : Argsort ℝ) (nrow ncol : Nat) (sigma : ℝ) (size : Option Nat)
    (dim : Nat) : Mproc.BlockFun (Nat → Nat → ℝ) where
  inplace rows := rows.map fun row => row.map
    (rsFilterFft ag nrow ncol (filterPad nrow) (gaussWindow (nrow + 2 * filterPad nrow) sigma)
      (rsSize ncol size) dim)
  ret _ := none

end

end Tomopy.Stripe
