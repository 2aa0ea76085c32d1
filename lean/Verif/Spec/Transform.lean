import Verif.Spec.LGSSM

/-!
# Specification: one linear-Gaussian model is the image of another under an affine map of the state
-/

namespace Cuthbert.Spec
open Matrix
open scoped ENNReal

variable {nx ny nx' ny' : ℕ}

/-- If `x` follows the transition of `s` then `T x + b` follows that of `s'`, and the observations of the two steps are
equally likely up to the constant factor `κ`. -/
structure StepMap (T : Matrix (Fin nx') (Fin nx) ℝ) (b : Fin nx' → ℝ) (κ : ℝ) (s : Step nx ny) (s' : Step nx' ny') :
    Prop where
  F : s'.F * T = T * s.F
  c : s'.F *ᵥ b + s'.c = T *ᵥ s.c + b
  Q : s'.cholQ * s'.cholQᵀ = T * (s.cholQ * s.cholQᵀ) * Tᵀ
  pos : 0 < κ
  lik : ∀ x, s'.lik (T *ᵥ x + b) = ENNReal.ofReal κ * s.lik x

end Cuthbert.Spec
