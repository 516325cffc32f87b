import Verif.Stripe.FilterModel

/-! Model of the fitting-based stripe removal, source/tomopy/prep/stripe.py:520-650.

Simplifications: real numbers instead of floating point; a pixel that the code computes with a
division by zero is `none`, and a sinogram that already contains such a pixel becomes undefined
everywhere (the mean of the fit is NaN); the sigmas are not zero; the coefficients of
`scipy.signal.savgol_filter` are a parameter, its convolution is modelled. -/
namespace Tomopy.Stripe
open Phase (fft2 ifft2)

noncomputable section

/-- Boundary mode 'mirror' of `savgol_filter` (stripe.py:634): the edge element is not repeated. -/
def mirrorSrc (n : Nat) (z : Int) : Nat :=
  if n ≤ 1 then 0
  else
    let m := (z % (2 * ((n : Int) - 1))).toNat
    if m < n then m else 2 * (n - 1) - m

/-- `savgol_filter(·, window, order, axis=0, mode='mirror')` (stripe.py:634) on one column of `n`
numbers: convolution with coefficients that depend on window and order only. -/
def savgol (coef : Nat → Nat → Nat → ℝ) (n window order : Nat) (x : Nat → ℝ) (t : Nat) : ℝ :=
  ∑ j ∈ Finset.range window, coef window order j * x (mirrorSrc n ((t : Int) + j - (window / 2 : Nat)))

/-- stripe.py:628-631: largest odd window. -/
def fitWindow (nrow : Nat) : Nat := if nrow % 2 = 0 then nrow - 1 else nrow

/-- stripe.py:632-633. -/
def fitOrder (order nrow1 : Nat) : Nat := if order ≥ nrow1 then nrow1 - 1 else order

/-- stripe.py:558-586 `_create_2d_window`, for an image of the padded size. -/
def window2d (height width : Nat) (sigma : ℝ × ℝ) (r c : Nat) : ℝ :=
  let x := (c : ℝ) - ((width : ℝ) - 1) / 2
  let y := (r : ℝ) - ((height : ℝ) - 1) / 2
  Real.exp (-(x * x / (2 * sigma.1 * sigma.1) + y * y / (2 * sigma.2 * sigma.2)))

/-- stripe.py:589-594 `_create_matsign`. -/
def matSign (r c : Nat) : ℝ := (-1) ^ (c + r)

/-- `np.mean` of an image (stripe.py:636-637). -/
def mean2 (nrow ncol : Nat) (A : Nat → Nat → ℝ) : ℝ :=
  (∑ t ∈ Finset.range nrow, ∑ i ∈ Finset.range ncol, A t i) / (nrow * ncol)

/-- stripe.py:617-618: columns continued by the edge, then rows by the mean of each column. -/
def fitPad (nrow ncol pad : Nat) (A : Nat → Nat → ℝ) (r c : Nat) : ℝ :=
  let i := min (c - pad) (ncol - 1)
  if r < pad ∨ pad + nrow ≤ r then (∑ t ∈ Finset.range nrow, A t i) / nrow else A (r - pad) i

/-- stripe.py:597-621 `_2d_filter`. -/
def filter2d (nrow ncol pad : Nat) (win : Nat → Nat → ℝ) (A : Nat → Nat → ℝ) (t i : Nat) : ℝ :=
  let H := nrow + 2 * pad
  let W := ncol + 2 * pad
  let spec := fft2 H W fun r c => ((fitPad nrow ncol pad A r c * matSign r c : ℝ) : ℂ)
  (ifft2 H W (fun u v => spec u v * (win u v : ℂ)) (t + pad) (i + pad) *
    ((matSign (t + pad) (i + pad) : ℝ) : ℂ)).re

/-- stripe.py:624-639 `_rs_fit`. -/
def rsFit (coef : Nat → Nat → Nat → ℝ) (nrow ncol pad order : Nat) (win : Nat → Nat → ℝ)
    (X : Nat → Nat → ℝ) (t i : Nat) : Option ℝ :=
  let nrow1 := fitWindow nrow
  let fit := fun t i => savgol coef nrow nrow1 (fitOrder order nrow1) (fun t => X t i) t
  let smooth := filter2d nrow ncol pad win fit
  let num1 := mean2 nrow ncol fit
  let num2 := mean2 nrow ncol smooth
  if num2 = 0 ∨ fit t i = 0 then none
  else some (X t i / fit t i * (num1 * smooth t i / num2))

/-- stripe.py:642-650 on a slice whose pixels may be undefined. -/
def rsFitSlice (coef : Nat → Nat → Nat → ℝ) (nrow ncol order : Nat) (sigma : ℝ × ℝ)
    (A : Nat → Nat → Option ℝ) : Nat → Nat → Option ℝ :=
  open Classical in
  let pad := filterPad nrow
  if ∀ t < nrow, ∀ i < ncol, A t i ≠ none then
    rsFit coef nrow ncol pad order (window2d (nrow + 2 * pad) (ncol + 2 * pad) sigma)
      (fun t i => (A t i).getD 0)
  else fun _ _ => none

/-- stripe.py:642-650 on a block of slices, worked on in place. -/
def removeStripeBasedFitting (coef : Nat → Nat → Nat → ℝ) (nrow ncol order : Nat) (sigma : ℝ × ℝ) :
    Mproc.BlockFun (Nat → Nat → Option ℝ) where
  inplace rows := rows.map fun row => row.map (rsFitSlice coef nrow ncol order sigma)
  ret _ := none

end

end Tomopy.Stripe
