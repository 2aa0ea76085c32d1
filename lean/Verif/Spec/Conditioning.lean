import Mathlib.LinearAlgebra.Matrix.NonsingularInverse
import Mathlib.Data.Real.Basic
import Mathlib.Algebra.BigOperators.Fin

/-!
# Specification: textbook Gaussian conditioning formulas

`x ~ N(m, P)`, `y | x ~ N(H x + d, R)`. `Lemmas/Bayes.lean` shows that these formulas are Bayes' rule for
the measures of `Spec/Gaussian.lean`.
-/

namespace Cuthbert
open Matrix

noncomputable section

variable {ι ο : Type*} [Fintype ι] [Fintype ο] [DecidableEq ο]

/-- Covariance of `y`. -/
def innovCov (P : Matrix ι ι ℝ) (H : Matrix ο ι ℝ) (R : Matrix ο ο ℝ) : Matrix ο ο ℝ :=
  H * P * Hᵀ + R

/-- Mean of `x` given `y`. -/
def condMean (m : ι → ℝ) (P : Matrix ι ι ℝ) (H : Matrix ο ι ℝ) (d : ο → ℝ) (R : Matrix ο ο ℝ)
    (y : ο → ℝ) : ι → ℝ :=
  m + P *ᵥ (Hᵀ *ᵥ ((innovCov P H R)⁻¹ *ᵥ (y - (H *ᵥ m + d))))

/-- Covariance of `x` given `y`. -/
def condCov (P : Matrix ι ι ℝ) (H : Matrix ο ι ℝ) (R : Matrix ο ο ℝ) : Matrix ι ι ℝ :=
  P - P * (Hᵀ * (innovCov P H R)⁻¹ * H) * P

/-- Symmetric positive definite with condition number below `1 / rtol`. -/
def WellConditioned (rtol : ℝ) (P : Matrix ι ι ℝ) : Prop :=
  P.IsSymm ∧ ∃ lo hi : ℝ, 0 < lo ∧ rtol * hi < lo ∧
    ∀ x : ι → ℝ, lo * (x ⬝ᵥ x) ≤ x ⬝ᵥ P *ᵥ x ∧ x ⬝ᵥ P *ᵥ x ≤ hi * (x ⬝ᵥ x)

/-! ## Missing components: `none` stands for NaN -/

/-- The observed components of `y`. -/
abbrev Obs {ny : ℕ} (y : Fin ny → Option ℝ) : Type := {i : Fin ny // (y i).isNone = false}

/-- Rows of `H` for the observed components. -/
def obsH {nx ny : ℕ} (y : Fin ny → Option ℝ) (H : Matrix (Fin ny) (Fin nx) ℝ) :
    Matrix (Obs y) (Fin nx) ℝ := H.submatrix Subtype.val id

/-- Observed components of a vector. -/
def obsV {ny : ℕ} (y : Fin ny → Option ℝ) (d : Fin ny → ℝ) : Obs y → ℝ := fun i => d i.1

/-- Rows of a covariance factor for the observed components. -/
def obsL {ny : ℕ} (y : Fin ny → Option ℝ) (L : Matrix (Fin ny) (Fin ny) ℝ) :
    Matrix (Obs y) (Fin ny) ℝ := L.submatrix Subtype.val id

/-- The observed values. -/
def obsY {ny : ℕ} (y : Fin ny → Option ℝ) : Obs y → ℝ := fun i => (y i.1).getD 0

end

end Cuthbert
