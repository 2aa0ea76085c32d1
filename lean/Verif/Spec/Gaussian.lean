import Mathlib.Probability.Distributions.Gaussian.Real
import Mathlib.MeasureTheory.Constructions.Pi
import Mathlib.LinearAlgebra.Matrix.NonsingularInverse
import Mathlib.MeasureTheory.Measure.Lebesgue.Basic

/-!
# Specification: Gaussian laws

Independent of the model of the code. `Lemmas/Gaussian.lean` shows that `gauss m L` is Mathlib's
multivariate Gaussian with mean `m` and covariance `L Lᵀ`, and that `gaussLogDensity` is the logarithm of
its Lebesgue density.
-/

namespace Cuthbert
open MeasureTheory ProbabilityTheory Matrix

noncomputable section

variable {ι κ : Type*} [Fintype ι] [Fintype κ]

/-- Independent standard normal coordinates. -/
def stdNormal (κ : Type*) [Fintype κ] : Measure (κ → ℝ) := Measure.pi fun _ => gaussianReal 0 1

/-- The law of `m + L ε` with `ε` standard normal: the Gaussian law with mean `m` and covariance
`L Lᵀ`, possibly degenerate. -/
def gauss (m : ι → ℝ) (L : Matrix ι κ ℝ) : Measure (ι → ℝ) :=
  (stdNormal κ).map fun ε => m + L *ᵥ ε

/-- The textbook logarithm of the density of the Gaussian law with mean `m` and nonsingular covariance
`S`. -/
def gaussLogDensity [DecidableEq ι] (m : ι → ℝ) (S : Matrix ι ι ℝ) (y : ι → ℝ) : ℝ :=
  -(1 / 2) * ((y - m) ⬝ᵥ S⁻¹ *ᵥ (y - m)) - Fintype.card ι / 2 * Real.log (2 * Real.pi)
    - 1 / 2 * Real.log S.det

end

end Cuthbert
