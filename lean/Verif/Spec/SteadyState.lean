import Verif.Spec.LGSSM
import Verif.Spec.Uncertainty

/-!
# Specification: time-invariant linear-Gaussian models and the Riccati equation
-/

namespace Cuthbert.Spec
open Matrix

noncomputable section

variable {nx ny : ℕ}

/-- The covariance of the state after an observation when it was `P` after the previous one. -/
def riccati (F Q : Matrix (Fin nx) (Fin nx) ℝ) (H : Matrix (Fin ny) (Fin nx) ℝ) (R : Matrix (Fin ny) (Fin ny) ℝ)
    (P : Matrix (Fin nx) (Fin nx) ℝ) : Matrix (Fin nx) (Fin nx) ℝ :=
  let S := F * P * Fᵀ + Q
  S - S * (Hᵀ * (H * S * Hᵀ + R)⁻¹ * H) * S

/-- The step has transition matrix `F`, process noise `Q`, observation matrix `H`, observation noise `R`, and all
components are observed. -/
structure HasParams (s : Step nx ny) (F Q : Matrix (Fin nx) (Fin nx) ℝ) (H : Matrix (Fin ny) (Fin nx) ℝ)
    (R : Matrix (Fin ny) (Fin ny) ℝ) : Prop where
  F : s.F = F
  Q : s.cholQ * s.cholQᵀ = Q
  H : s.H = H
  R : s.cholR * s.cholRᵀ = R
  y : ∀ i, (s.y i).isNone = false

/-- Some fixed gain `K` makes the error of the estimate `x̂ ↦ F x̂ + K (y - H F x̂)` contract, as measured by the
quadratic form `B`. -/
def Detectable (F : Matrix (Fin nx) (Fin nx) ℝ) (H : Matrix (Fin ny) (Fin nx) ℝ) : Prop :=
  ∃ (K : Matrix (Fin nx) (Fin ny) ℝ) (B : Matrix (Fin nx) (Fin nx) ℝ) (ρ : ℝ), B.PosDef ∧ 0 ≤ ρ ∧ ρ < 1 ∧
    Below ((1 - K * H) * F * B * ((1 - K * H) * F)ᵀ) (ρ • B)

end

end Cuthbert.Spec
