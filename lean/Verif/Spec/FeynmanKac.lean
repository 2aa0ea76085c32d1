import Mathlib.MeasureTheory.Integral.Lebesgue.Basic
import Verif.Spec.LGSSM

/-!
# Specification: Feynman-Kac path expectations

A Markov chain whose paths are weighted by potentials. Nothing here refers to any algorithm.
-/

namespace Cuthbert
open MeasureTheory Matrix
open scoped ENNReal

noncomputable section

variable {E : Type*} [MeasurableSpace E]

/-- One time step: the transition kernel and the weight of a transition. -/
structure FKStep (E : Type*) [MeasurableSpace E] where
  kernel : E → Measure E
  pot : E → E → ℝ≥0∞

/-- `E[f(x_0, ..., x_T) ∏_t G_t(x_{t-1}, x_t) | x_0 = x]`. The path is extended by `x_T` after the final
time. -/
def fkPathExp : List (FKStep E) → ((ℕ → E) → ℝ≥0∞) → E → ℝ≥0∞
  | [], f, x => f fun _ => x
  | s :: ss, f, x => ∫⁻ x', s.pot x x' * fkPathExp ss (fun p => f (pathCons x p)) x' ∂s.kernel x

/-- `E[f(x_0, ..., x_T) ∏_t G_t(x_{t-1}, x_t)]` for `x_0 ~ μ`. -/
def fkExp (μ : Measure E) (ss : List (FKStep E)) (f : (ℕ → E) → ℝ≥0∞) : ℝ≥0∞ :=
  ∫⁻ x, fkPathExp ss f x ∂μ

/-- The expectation of a real function of the path under the normalised Feynman-Kac measure. -/
def fkMean (μ : Measure E) (ss : List (FKStep E)) (f : (ℕ → E) → ℝ) : ℝ :=
  ((fkExp μ ss fun p => ENNReal.ofReal (f p)).toReal - (fkExp μ ss fun p => ENNReal.ofReal (-f p)).toReal) /
    (fkExp μ ss fun _ => 1).toReal

/-- A step of a linear-Gaussian state-space model: the potential is the likelihood. -/
def Step.toFK {nx ny : ℕ} (s : Step nx ny) : FKStep (Fin nx → ℝ) where
  kernel x := gauss (s.F *ᵥ x + s.c) s.cholQ
  pot _ x' := s.lik x'

end

end Cuthbert
