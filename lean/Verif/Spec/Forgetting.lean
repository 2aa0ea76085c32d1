import Mathlib.MeasureTheory.Integral.Lebesgue.Basic
import Verif.Spec.FeynmanKac

/-!
# Specification: steps of a Feynman-Kac model that forget where they started

Nothing here refers to any algorithm.
-/

namespace Cuthbert
open MeasureTheory
open scoped ENNReal NNReal

variable {E : Type*} [MeasurableSpace E]

/-- The weighted law of the next state depends on the present state by at most a factor `r`, and no weight exceeds
`b` times the mean weight. -/
structure FKStep.Forgets (s : FKStep E) (r b : ℝ≥0) : Prop where
  forget : ∀ f : E → ℝ≥0∞, Measurable f → ∀ x y,
    ∫⁻ x', s.pot x x' * f x' ∂s.kernel x ≤ r * ∫⁻ x', s.pot y x' * f x' ∂s.kernel y
  bound : ∀ x x' y, s.pot x x' ≤ b * ∫⁻ x'', s.pot y x'' ∂s.kernel y
  pos : ∀ x, ∫⁻ x', s.pot x x' ∂s.kernel x ≠ 0
  finite : ∀ x, ∫⁻ x', s.pot x x' ∂s.kernel x ≠ ⊤

end Cuthbert
