import Verif.Spec.LGSSM
import Mathlib.MeasureTheory.Integral.Bochner.Basic

/-!
# Specification: the objective of an EM step

What a smoother reports about consecutive states, and the expectation under it of the logarithm of the joint density
`log p(x_0..x_T, y_1..y_T)` of a (possibly different) model: the function that the M-step of the EM algorithm
maximises (`docs/examples/parameter_estimation_em.md`). Nothing here refers to the filter or the smoother.
-/

namespace Cuthbert.Spec
open MeasureTheory Matrix

noncomputable section

variable {nx ny : ℕ}

/-- The fields of one smoothing state: mean, factor, gain, factor of the covariance given the next state. -/
structure Smoothed (nx : ℕ) where
  m : Fin nx → ℝ
  L : Matrix (Fin nx) (Fin nx) ℝ
  G : Matrix (Fin nx) (Fin nx) ℝ
  V : Matrix (Fin nx) (Fin nx) ℝ

/-- The law of `(x_{t+1}, x_t)` that the smoothing states `q` at time `t` and `q'` at time `t + 1` stand for. -/
def Smoothed.joint (q q' : Smoothed nx) : Measure (Fin nx ⊕ Fin nx → ℝ) :=
  gauss (Sum.elim q'.m q.m) (Matrix.fromBlocks q'.L 0 (q.G * q'.L) q.V)

/-- `E[log p(x_{t+1} | x_t)]` for the pair `(x_{t+1}, x_t)` with law `μ`. -/
def expTransition (s : Step nx ny) (μ : Measure (Fin nx ⊕ Fin nx → ℝ)) : ℝ :=
  ∫ z, gaussLogDensity (s.F *ᵥ (fun i => z (.inr i)) + s.c) (s.cholQ * s.cholQᵀ) (fun i => z (.inl i)) ∂μ

/-- `E[log p(y_t | x_t)]` for `x_t` with law `μ`. -/
def expObservation (s : Step nx ny) (μ : Measure (Fin nx → ℝ)) : ℝ :=
  ∫ x, gaussLogDensity (obsH s.y s.H *ᵥ x + obsV s.y s.d) s.R (obsY s.y) ∂μ

/-- The terms of the steps. -/
def emSteps : List (Step nx ny) → (ℕ → Smoothed nx) → ℝ
  | [], _ => 0
  | s :: ss, q => expTransition s ((q 0).joint (q 1)) + expObservation s (gauss (q 1).m (q 1).L) +
      emSteps ss fun n => q (n + 1)

/-- The EM objective of the model `(m0, cholP0, ss)` under the smoothing states `q`. -/
def emObjective (m0 : Fin nx → ℝ) (cholP0 : Matrix (Fin nx) (Fin nx) ℝ) (ss : List (Step nx ny))
    (q : ℕ → Smoothed nx) : ℝ :=
  ∫ x, gaussLogDensity m0 (cholP0 * cholP0ᵀ) x ∂gauss (q 0).m (q 0).L + emSteps ss q

end

end Cuthbert.Spec
