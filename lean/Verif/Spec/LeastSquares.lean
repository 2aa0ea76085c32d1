import Verif.Spec.LGSSM
import Mathlib.Analysis.Calculus.FDeriv.Basic

/-!
# Specification: trajectories driven by noise, and their cost

`x_0 = m0 + L0 ε`, `x_t = F x_{t-1} + c + L_Q w_{t-1}`. The cost of a trajectory is the squared size of the
noise that drives it plus the squared residuals of the data, each measured in units of its standard
deviation: minus twice the logarithm of the joint density of noise and data, up to a constant. Nothing
here refers to the filter or the smoother.
-/

namespace Cuthbert.Spec
open Matrix

noncomputable section

variable {nx ny : ℕ}

/-- `x_1, x_2, ...` follow from `x_0` by the transitions with the noise `w`. -/
def DrivenFrom : List (Step nx ny) → (ℕ → Fin nx → ℝ) → (ℕ → Fin nx → ℝ) → Prop
  | [], _, _ => True
  | s :: ss, x, w => x 1 = s.F *ᵥ x 0 + s.c + s.cholQ *ᵥ w 0 ∧
      DrivenFrom ss (fun n => x (n + 1)) fun n => w (n + 1)

/-- The trajectory `x` is driven by the noises `ε` (initial) and `w` (transitions). -/
def Driven (m0 : Fin nx → ℝ) (cholP0 : Matrix (Fin nx) (Fin nx) ℝ) (ss : List (Step nx ny))
    (x : ℕ → Fin nx → ℝ) (ε : Fin nx → ℝ) (w : ℕ → Fin nx → ℝ) : Prop :=
  x 0 = m0 + cholP0 *ᵥ ε ∧ DrivenFrom ss x w

/-- What the state `x` does not explain of the observed components. -/
def residual (s : Step nx ny) (x : Fin nx → ℝ) : Obs s.y → ℝ :=
  obsY s.y - (obsH s.y s.H *ᵥ x + obsV s.y s.d)

/-- Squared residuals, in units of the observation noise. -/
def misfit (s : Step nx ny) (x : Fin nx → ℝ) : ℝ := residual s x ⬝ᵥ s.R⁻¹ *ᵥ residual s x

/-- Cost of the steps. -/
def stepCost : List (Step nx ny) → (ℕ → Fin nx → ℝ) → (ℕ → Fin nx → ℝ) → ℝ
  | [], _, _ => 0
  | s :: ss, x, w => w 0 ⬝ᵥ w 0 + misfit s (x 1) + stepCost ss (fun n => x (n + 1)) fun n => w (n + 1)

/-- Cost of a trajectory with the noises that drive it. -/
def pathCost (ss : List (Step nx ny)) (x : ℕ → Fin nx → ℝ) (ε : Fin nx → ℝ) (w : ℕ → Fin nx → ℝ) : ℝ :=
  ε ⬝ᵥ ε + stepCost ss x w

/-- `log p(x_1, ..., x_T, y_1, ..., y_T | x_0)`. -/
def logDensityFrom : List (Step nx ny) → (ℕ → Fin nx → ℝ) → ℝ
  | [], _ => 0
  | s :: ss, x => gaussLogDensity (s.F *ᵥ x 0 + s.c) (s.cholQ * s.cholQᵀ) (x 1) +
      gaussLogDensity (obsH s.y s.H *ᵥ x 1 + obsV s.y s.d) s.R (obsY s.y) +
      logDensityFrom ss fun n => x (n + 1)

/-- `log p(x_0, ..., x_T, y_1, ..., y_T)`, for nonsingular covariances. -/
def pathLogDensity (m0 : Fin nx → ℝ) (cholP0 : Matrix (Fin nx) (Fin nx) ℝ) (ss : List (Step nx ny))
    (x : ℕ → Fin nx → ℝ) : ℝ :=
  gaussLogDensity m0 (cholP0 * cholP0ᵀ) (x 0) + logDensityFrom ss x

/-! ## Nonlinear models with additive Gaussian noise -/

/-- One time step `x_t = f(x_{t-1}) + N(0, Q)`, `y_t = h(x_t) + N(0, R)`, with the observation. -/
structure NStep (nx ny : ℕ) where
  f : (Fin nx → ℝ) → Fin nx → ℝ
  cholQ : Matrix (Fin nx) (Fin nx) ℝ
  h : (Fin nx → ℝ) → Fin ny → ℝ
  cholR : Matrix (Fin ny) (Fin ny) ℝ
  y : Fin ny → Option ℝ

/-- Covariance of the noise of the observed components. -/
def NStep.R (s : NStep nx ny) : Matrix (Obs s.y) (Obs s.y) ℝ := obsL s.y s.cholR * (obsL s.y s.cholR)ᵀ

/-- `log p(x_1, ..., x_T, y_1, ..., y_T | x_0)`. -/
def nlLogDensityFrom : List (NStep nx ny) → (ℕ → Fin nx → ℝ) → ℝ
  | [], _ => 0
  | s :: ss, x => gaussLogDensity (s.f (x 0)) (s.cholQ * s.cholQᵀ) (x 1) +
      gaussLogDensity (obsV s.y (s.h (x 1))) s.R (obsY s.y) + nlLogDensityFrom ss fun n => x (n + 1)

/-- `log p(x_0, ..., x_T, y_1, ..., y_T)`. -/
def nlLogDensity (m0 : Fin nx → ℝ) (cholP0 : Matrix (Fin nx) (Fin nx) ℝ) (ss : List (NStep nx ny))
    (x : ℕ → Fin nx → ℝ) : ℝ :=
  gaussLogDensity m0 (cholP0 * cholP0ᵀ) (x 0) + nlLogDensityFrom ss x

/-- The functions are differentiable along the trajectory. -/
def SmoothAlong : List (NStep nx ny) → (ℕ → Fin nx → ℝ) → Prop
  | [], _ => True
  | s :: ss, x => DifferentiableAt ℝ s.f (x 0) ∧ DifferentiableAt ℝ s.h (x 1) ∧
      SmoothAlong ss fun n => x (n + 1)

end

end Cuthbert.Spec
