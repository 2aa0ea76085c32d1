import Verif.Spec.Gaussian
import Verif.Spec.Conditioning

/-!
# Specification: linear-Gaussian state-space models

`x_0 ~ N(m0, P0)`, `x_t = F x_{t-1} + c + N(0, Q)`, `y_t = H x_t + d + N(0, R)`, missing components of
`y_t` being simply not observed. Everything is stated through expectations over the latent path weighted
by the likelihood of what was observed; nothing here refers to the filter or the smoother.
-/

namespace Cuthbert
open MeasureTheory Matrix
open scoped ENNReal

noncomputable section

variable {nx ny : ℕ}

/-- One time step: transition parameters, observation parameters and the observation. -/
structure Step (nx ny : ℕ) where
  F : Matrix (Fin nx) (Fin nx) ℝ
  c : Fin nx → ℝ
  cholQ : Matrix (Fin nx) (Fin nx) ℝ
  H : Matrix (Fin ny) (Fin nx) ℝ
  d : Fin ny → ℝ
  cholR : Matrix (Fin ny) (Fin ny) ℝ
  y : Fin ny → Option ℝ

/-- Covariance of the noise of the observed components. -/
def Step.R (s : Step nx ny) : Matrix (Obs s.y) (Obs s.y) ℝ :=
  obsL s.y s.cholR * (obsL s.y s.cholR)ᵀ

/-- `p(y_t | x_t = x)`: the Gaussian density of the observed components. -/
def Step.lik (s : Step nx ny) (x : Fin nx → ℝ) : ℝ≥0∞ :=
  ENNReal.ofReal (Real.exp (gaussLogDensity (obsH s.y s.H *ᵥ x + obsV s.y s.d) s.R (obsY s.y)))

/-- Put `x` in front of a path. -/
def pathCons {V : Type*} (x : V) (p : ℕ → V) : ℕ → V
  | 0 => x
  | n + 1 => p n

/-- `E[f(x_0, x_1, ..., x_T) ∏_t p(y_t | x_t) | x_0 = x]`, the product over the steps. The path is
extended by `x_T` after the final time. -/
def pathExp : List (Step nx ny) → ((ℕ → Fin nx → ℝ) → ℝ≥0∞) → (Fin nx → ℝ) → ℝ≥0∞
  | [], f, x => f fun _ => x
  | s :: ss, f, x =>
    ∫⁻ x', s.lik x' * pathExp ss (fun p => f (pathCons x p)) x' ∂gauss (s.F *ᵥ x + s.c) s.cholQ

/-- `E[f(x_0, ..., x_T) ∏_t p(y_t | x_t)]`: the expectation of `f` under `p(x_0..x_T, y_1..y_T)` for the
given observations. With `f = 1` it is the evidence `p(y_1, ..., y_T)`. -/
def jointExp (m0 : Fin nx → ℝ) (cholP0 : Matrix (Fin nx) (Fin nx) ℝ) (ss : List (Step nx ny))
    (f : (ℕ → Fin nx → ℝ) → ℝ≥0∞) : ℝ≥0∞ :=
  ∫⁻ x, pathExp ss f x ∂gauss m0 cholP0

end

end Cuthbert
