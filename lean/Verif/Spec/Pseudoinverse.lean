import Mathlib.LinearAlgebra.Matrix.Symmetric
import Mathlib.Data.Real.Basic
import Mathlib.Algebra.Order.Group.Abs

/-!
# Specification: pseudo-inverses
-/

namespace Cuthbert.Spec
open Matrix

variable {ι : Type*} [Fintype ι]

/-- Penrose's four conditions: `C` is the Moore-Penrose inverse of `A`. -/
structure IsPinv (A C : Matrix ι ι ℝ) : Prop where
  aca : A * C * A = A
  cac : C * A * C = C
  ac : (A * C).IsSymm
  ca : (C * A).IsSymm

/-- A symmetric matrix whose eigenvalues are zero or positive with ratios below `1 / rtol`. It may be singular. -/
def SemiConditioned (rtol : ℝ) (A : Matrix ι ι ℝ) : Prop :=
  A.IsSymm ∧ ∃ hi : ℝ, 0 < hi ∧ ∀ (v : ι → ℝ) (μ : ℝ), v ≠ 0 → A *ᵥ v = μ • v → μ = 0 ∨ rtol * hi < μ ∧ μ ≤ hi

/-- `B` is the absolute value of the symmetric matrix `A`: it has the same eigenvectors and the absolute eigenvalues. -/
def IsAbs (A B : Matrix ι ι ℝ) : Prop := ∀ (v : ι → ℝ) (μ : ℝ), A *ᵥ v = μ • v → B *ᵥ v = |μ| • v

/-- Dimension `i` does not appear in the matrix. -/
def ZeroDim (A : Matrix ι ι ℝ) (i : ι) : Prop := (∀ r, A r i = 0) ∧ ∀ c, A i c = 0

end Cuthbert.Spec
