import Verif.Base
import Mathlib.Data.Matrix.Mul
import Mathlib.Analysis.Real.Sqrt
import Mathlib.Algebra.BigOperators.Fin

/-! Model of Titarenko's stripe removal, source/tomopy/prep/stripe.py:211-330.

Simplifications: exact arithmetic; a result spoilt by NaN or a division by zero is `none` (numpy then
goes through the whole million iterations, as a NaN is never below the bound).  Vectors of length `n`
are functions on `Fin n`. -/
set_option linter.unusedSectionVars false

namespace Tomopy.Ti
open Matrix

section
variable {K : Type} [Field K] [LinearOrder K] [IsStrictOrderedRing K]

/-- stripe.py:228-243 `_kernel(m, 1)` for the two values of `m` that are used. -/
def kernel (m : Nat) : List K := if m = 1 then [1, -1] else [-1, 2, -1]

/-- `np.convolve(a, b)` of arrays of length `na` and `nb` (stripe.py:247, 249), at position `i`. -/
def conv (na : Nat) (a : Nat → K) (nb : Nat) (b : Nat → K) (i : Nat) : K :=
  ∑ j ∈ Finset.range nb, if j ≤ i ∧ i - j < na then a (i - j) * b j else 0

/-- The vector as a function of a natural number, 0 outside (stripe.py:246). -/
def ext {n : Nat} (x : Fin n → K) (i : Nat) : K := if h : i < n then x ⟨i, h⟩ else 0

/-- stripe.py:246-250 `_ringMatXvec` for `n ≥ len(h)`; otherwise `u` is empty and `np.convolve`
raises, see `ring`. -/
def matXvec {n : Nat} (h : List K) (x : Fin n → K) (i : Fin n) : K :=
  let L := h.length
  let s := conv n (ext x) L fun j => h.getD (L - 1 - j) 0      -- 247
  let u := fun k => s (L - 1 + k)                              -- 248
  conv (n - (L - 1)) u L (fun j => h.getD j 0) i               -- 249

/-- The variables of the loop (stripe.py:254-269). -/
structure Cg (n : Nat) (K : Type) where
  r : Fin n → K
  w : Fin n → K
  z : Fin n → K
  a : K
  x : Fin n → K

/-- stripe.py:261-270, the loop; `A` is the matrix of line 255 and `tol` the square of the bound of
line 263. -/
def cgLoop {n : Nat} (A : (Fin n → K) → Fin n → K) (tol : K) : Nat → Cg n K → Option (Fin n → K)
  | 0, s => some s.x
  | fuel + 1, s =>
    let r := s.r - s.a • s.z                                   -- 262
    if r ⬝ᵥ r < tol then some s.x                              -- 263-264
    else if s.w ⬝ᵥ s.z = 0 then none
    else
      let B := r ⬝ᵥ s.z / (s.w ⬝ᵥ s.z)                          -- 265
      let w := -r + B • s.w                                    -- 266
      let z := A w                                             -- 267
      if w ⬝ᵥ z = 0 then none
      else
        let a := r ⬝ᵥ w / (w ⬝ᵥ z)                              -- 268
        cgLoop A tol fuel ⟨r, w, z, a, s.x + a • w⟩             -- 269

/-- stripe.py:253-270 `_ringCGM` with the matrix `A`, `iters` iterations and the square of the
bound. -/
def cgmWith {n : Nat} (A : (Fin n → K) → Fin n → K) (tol : K) (iters : Nat) (f : Fin n → K) :
    Option (Fin n → K) :=
  let r := f - A 0                                             -- 254-255
  let w := -r                                                  -- 256
  let z := A w                                                 -- 257
  if w ⬝ᵥ z = 0 then none
  else
    let a := r ⬝ᵥ w / (w ⬝ᵥ z)                                  -- 258
    cgLoop A tol iters ⟨r, w, z, a, a • w⟩                      -- 259-270

/-- The matrix of stripe.py:255: `_ringMatXvec(h, x) + alpha * x`. -/
def ringMat {n : Nat} (h : List K) (alpha : K) (x : Fin n → K) : Fin n → K :=
  matXvec h x + alpha • x

/-- stripe.py:253-270 `_ringCGM`. -/
def ringCGM {n : Nat} (h : List K) (alpha : K) (f : Fin n → K) : Option (Fin n → K) :=
  cgmWith (ringMat h alpha) (1 / 10 ^ 14) 1000000 f

/-- Largest of `nrow` numbers (stripe.py:274). -/
def maxOf (nrow : Nat) (v : Nat → K) : K := ((List.range nrow).map v).foldl max (v 0)

/-- Smallest of `nrow` numbers (stripe.py:274). -/
def minOf (nrow : Nat) (v : Nat → K) : K := ((List.range nrow).map v).foldl min (v 0)

/-- stripe.py:273-274 `_get_parameter`, on the angles `lo ≤ t < lo + cnt`: `none` when all sums are
equal, where numpy gets infinity. -/
def getParameter (n lo cnt : Nat) (X : Nat → Nat → K) : Option K :=
  let sums := fun t => ∑ i ∈ Finset.range n, X (lo + t) i
  let d := maxOf cnt sums - minOf cnt sums
  if d = 0 then none else some (1 / (2 * d))

/-- The mean over the angles `lo ≤ t < lo + cnt` (stripe.py:289, 320). -/
def meanProfile (n lo cnt : Nat) (X : Nat → Nat → K) (i : Fin n) : K :=
  (∑ t ∈ Finset.range cnt, X (lo + t) i) / cnt

/-- The correction of one block of angles (stripe.py:286-292, 319-323). -/
def correction (n m lo cnt : Nat) (X : Nat → Nat → K) : Option (Fin n → K) :=
  match getParameter n lo cnt X with
  | none => none
  | some alpha => ringCGM (kernel m) alpha (-matXvec (kernel m) (meanProfile n lo cnt X))

/-- stripe.py:277-299 `_ring`: `X t i` is the sinogram, `none` standing for NaN; `np.convolve` raises
ValueError when there are fewer columns than kernel entries. -/
def ring (nrow n m : Nat) (X : Nat → Nat → Option K) : Except PyErr (Option (Nat → Nat → K)) :=
  if n < (kernel (K := K) m).length then .error .value
  else
    let Y := fun t i => (X t i).getD 0                         -- 283
    .ok ((correction n m 0 nrow Y).map fun q t i => Y t i + ext q i)   -- 286-298

/-- stripe.py:302-330 `_ringb`.  Line 308 replaces nothing (`np.isnan(..) is True` is `False`), so a
NaN spoils its block and, through `p.min()`, the result. -/
def ringb (nrow n m step : Nat) (X : Nat → Nat → Option K) :
    Except PyErr (Option (Nat → Nat → K)) :=
  if step = 0 then .error .zeroDivision                        -- 315: int(N / 0)
  else if n < (kernel (K := K) m).length then .error .value
  else
    let nblock := nrow / step                                  -- 315
    let Y := fun t i => (X t i).getD 0
    if (∀ t < nblock * step, ∀ i < n, (X t i).isSome) ∧
        ∀ k < nblock, (correction n m (k * step) step Y).isSome then
      .ok (some fun t i =>
        if t < nblock * step then
          Y t i + ext ((correction n m (t / step * step) step Y).getD 0) i    -- 317-328
        else 1)                                                -- 316
    else .ok none

end

/-- `p.min()` (stripe.py:218, 224) of an image. -/
noncomputable def minImage (nrow n : Nat) (p : Nat → Nat → ℝ) : ℝ :=
  ((List.range nrow).flatMap fun t => (List.range n).map (p t)).foldl min (p 0 0)

/-- `np.sqrt(p + alpha * np.abs(p.min()))` (stripe.py:217-218, 223-224). -/
noncomputable def combine (nrow n : Nat) (alpha : ℝ) (d1 d2 : Nat → Nat → ℝ) (t i : Nat) : Option ℝ :=
  let p := fun t i => d1 t i * d2 t i
  let v := p t i + alpha * |minImage nrow n p|
  if v < 0 then none else some (Real.sqrt v)

/-- stripe.py:211-225: one sinogram of `_remove_stripe_ti`. -/
noncomputable def removeTi (nrow n nblock : Nat) (alpha : ℝ) (X : Nat → Nat → Option ℝ) :
    Except PyErr (Nat → Nat → Option ℝ) := do
  let d1 ← if nblock = 0 then ring nrow n 1 X else ringb nrow n 1 (nrow / nblock) X
  let d2 ← if nblock = 0 then ring nrow n 2 X else ringb nrow n 2 (nrow / nblock) X
  match d1, d2 with
  | some d1, some d2 => .ok (combine nrow n alpha d1 d2)
  | _, _ => .ok fun _ _ => none

end Tomopy.Ti
