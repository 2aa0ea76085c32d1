import Mathlib.MeasureTheory.Integral.Lebesgue.Basic

/-!
# Specification: a Metropolis-Hastings sampler

The sampler is not part of the library; it is what a user builds around the evidence that a filter reports.
-/

namespace Cuthbert.Spec
open MeasureTheory
open scoped ENNReal

noncomputable section

variable {E : Type*}

/-- The probability of accepting the proposal `y` in the state `x`, for the unnormalised target density `w` and the proposal
density `q`. -/
def accept (w : E → ℝ≥0∞) (q : E → E → ℝ≥0∞) (x y : E) : ℝ≥0∞ := min 1 (w y * q y x / (w x * q x y))

/-- The expectation of `f` after one step from `x`: propose `y` with density `q x` with respect to `μ`, move to `y` if it is
accepted and stay otherwise. -/
def mhStep [MeasurableSpace E] (μ : Measure E) (w : E → ℝ≥0∞) (q : E → E → ℝ≥0∞) (f : E → ℝ≥0∞) (x : E) : ℝ≥0∞ :=
  ∫⁻ y, q x y * accept w q x y * f y ∂μ + (1 - ∫⁻ y, q x y * accept w q x y ∂μ) * f x

end

end Cuthbert.Spec
