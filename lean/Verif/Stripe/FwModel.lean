import Verif.Base
import Verif.Stripe.FilterModel

/-! Model of the Fourier-wavelet stripe removal, source/tomopy/prep/stripe.py:88-176.

Simplifications: real numbers instead of floating point; `pywt.dwt2` and `pywt.idwt2` are a separable
linear filter bank whose coefficients (wavelet and extension at the border) are parameters, with the
lengths documented by PyWavelets; `sigma` is not zero. -/
namespace Tomopy.Stripe
open Phase (shiftSrc)

noncomputable section

/-- An array of two dimensions, such as `sli` or `cV[n]` (stripe.py:144-155). -/
structure Im where
  r : Nat
  c : Nat
  get : Nat → Nat → ℝ

/-- One-dimensional analysis and synthesis of `pywt` for the wavelet `wname` (stripe.py:152, 175):
`lo n k j` is the weight of sample `j < n` in coefficient `k`, and `rlo m t k` that of coefficient
`k < m` in sample `t`; `taps` is the length of the wavelet filter. -/
structure Bank where
  taps : Nat
  lo : Nat → Nat → Nat → ℝ
  hi : Nat → Nat → Nat → ℝ
  rlo : Nat → Nat → Nat → ℝ
  rhi : Nat → Nat → Nat → ℝ

/-- `pywt.dwt_coeff_len` in mode 'symmetric' (stripe.py:152). -/
def Bank.dlen (B : Bank) (n : Nat) : Nat := (n + B.taps - 1) / 2

/-- Length of `pywt.idwt` (stripe.py:175). -/
def Bank.rlen (B : Bank) (m : Nat) : Nat := 2 * m + 2 - B.taps

/-- A separable analysis of both axes, used by `pywt.dwt2` (stripe.py:152). -/
def Bank.apply (B : Bank) (f g : Nat → Nat → Nat → ℝ) (s : Im) : Im :=
  ⟨B.dlen s.r, B.dlen s.c, fun k l => ∑ i ∈ Finset.range s.r, ∑ j ∈ Finset.range s.c,
    f s.r k i * g s.c l j * s.get i j⟩

/-- `sli, (cHt, cVt, cDt) = pywt.dwt2(sli, wname)` (stripe.py:152): `cV` holds the details along the
second axis (detector columns) of the averages along the first (angles). -/
def Bank.dwt2 (B : Bank) (s : Im) : Im × (Im × Im × Im) :=
  (B.apply B.lo B.lo s, B.apply B.hi B.lo s, B.apply B.lo B.hi s, B.apply B.hi B.hi s)

/-- `pywt.idwt2((sli, (cH, cV, cD)), wname)` (stripe.py:175); arrays of different shapes raise. -/
def Bank.idwt2 (B : Bank) (a : Im) (d : Im × Im × Im) : Except PyErr Im :=
  if a.r = d.1.r ∧ a.c = d.1.c ∧ a.r = d.2.1.r ∧ a.c = d.2.1.c ∧ a.r = d.2.2.r ∧ a.c = d.2.2.c then
    .ok ⟨B.rlen a.r, B.rlen a.c, fun t i => ∑ p ∈ Finset.range a.r, ∑ q ∈ Finset.range a.c,
      (B.rlo a.r t p * B.rlo a.c i q * a.get p q + B.rhi a.r t p * B.rlo a.c i q * d.1.get p q +
        B.rlo a.r t p * B.rhi a.c i q * d.2.1.get p q + B.rhi a.r t p * B.rhi a.c i q * d.2.2.get p q)⟩
  else .error .value

/-- stripe.py:164-165: `y_hat` and `damp`; `my` rows. -/
def fwDamp (my : Nat) (sigma : ℝ) (a : Nat) : ℝ :=
  let y := (-(my : ℝ) + 2 * a + 1) / 2
  1 - Real.exp (-(y ^ 2 / (2 * sigma ^ 2)))

/-- Source index of `np.fft.ifftshift` (stripe.py:170). -/
def ishiftSrc (n i : Nat) : Nat := (i + n / 2) % n

/-- stripe.py:160-170: damping of one array `cV[n]`. -/
def fwDampen (sigma : ℝ) (v : Im) : Im :=
  let f := fun u l => dft v.r (fun t => (v.get t l : ℂ)) u                        -- fft, axis 0
  let sh := fun a b => f (shiftSrc v.r a) (shiftSrc v.c b)                        -- fftshift
  let dm := fun a b => sh a b * (fwDamp v.r sigma a : ℂ)
  let un := fun u l => dm (ishiftSrc v.r u) (ishiftSrc v.c l)                     -- ifftshift
  ⟨v.r, v.c, fun t l => (idft v.r (fun u => un u l) t).re⟩

/-- stripe.py:148-155: `level` decompositions, finest first. -/
def fwDecompose (B : Bank) : Nat → Im → Im × List (Im × Im × Im)
  | 0, s => (s, [])
  | n + 1, s =>
    let p := B.dwt2 s
    let q := fwDecompose B n p.1
    (q.1, p.2 :: q.2)

/-- stripe.py:173-175: reconstruction, coarsest level first; `sli[0:r, 0:c]` keeps at most `r` rows. -/
def fwRebuild (B : Bank) (a : Im) : List (Im × Im × Im) → Except PyErr Im
  | [] => .ok a
  | d :: ds => do
    let s ← fwRebuild B a ds
    B.idwt2 ⟨min d.1.r s.r, min d.1.c s.c, s.get⟩ d

/-- stripe.py:136-138. -/
def fwRows (pad : Bool) (dx : Nat) : Nat := if pad then dx + dx / 8 else dx

/-- stripe.py:139. -/
def fwShift (pad : Bool) (dx : Nat) : Nat := (fwRows pad dx - dx) / 2

/-- stripe.py:144-145: the slice between rows of zeros. -/
def fwPad (pad : Bool) (dx dz : Nat) (X : Nat → Nat → ℝ) : Im :=
  ⟨fwRows pad dx, dz, fun t i => if fwShift pad dx ≤ t ∧ t < dx + fwShift pad dx
    then X (t - fwShift pad dx) i else 0⟩

/-- stripe.py:143-176 on one slice of `dx` angles and `dz` columns.  The assignment of line 176
raises if the shapes differ. -/
def fwSlice (B : Bank) (level : Nat) (sigma : ℝ) (pad : Bool) (dx dz : Nat) (X : Nat → Nat → ℝ) :
    Except PyErr (Nat → Nat → ℝ) := do
  let p := fwDecompose B level (fwPad pad dx dz X)
  let s ← fwRebuild B p.1 (p.2.map fun d => (d.1, fwDampen sigma d.2.1, d.2.2))
  if s.r < dx + fwShift pad dx ∨ s.c < dz then .error .value
  else .ok fun t i => s.get (t + fwShift pad dx) i

/-- stripe.py:176: the slice after the call; an exception leaves it as it is. -/
def fwOr (B : Bank) (level : Nat) (sigma : ℝ) (pad : Bool) (dx dz : Nat) (X : Nat → Nat → ℝ) : Nat → Nat → ℝ :=
  match fwSlice B level sigma pad dx dz X with
  | .ok Y => Y
  | .error _ => X

/-- stripe.py:134-176 on a block of slices, worked on in place (`fw_total` shows that no slice raises). -/
def removeStripeFw (B : Bank) (level : Nat) (sigma : ℝ) (pad : Bool) (dx dz : Nat) :
    Mproc.BlockFun (Nat → Nat → ℝ) where
  inplace rows := rows.map fun row => row.map (fwOr B level sigma pad dx dz)
  ret _ := none

/-- stripe.py:121-123: default of `level`, `int(ceil(log2(max(shape))))`. -/
def fwLevel (shape : Nat × Nat × Nat) : Option Nat → Nat
  | some l => l
  | none => Nat.clog 2 (max shape.1 (max shape.2.1 shape.2.2))

end

end Tomopy.Stripe
