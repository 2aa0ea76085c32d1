import Verif.Spec.SecondOrder
import Verif.Spec.Uncertainty

/-!
# Specification: a model with other noise
-/

namespace Cuthbert.Spec
open Matrix Generate

variable {nx ny : ℕ}

/-- The model `θ` with the noise factors `cholQ` and `cholR` instead of its own. -/
def withNoise (θ : ℕ → Par nx ny) (cholQ : ℕ → Matrix (Fin nx) (Fin nx) ℝ) (cholR : ℕ → Matrix (Fin ny) (Fin ny) ℝ) :
    ℕ → Par nx ny := fun t => { θ t with cholQ := cholQ t, cholR := cholR t }

/-- The noise factors `cholP0'`, `cholQ'` and `cholR'` give at least as much noise as the model `θ` with initial factor
`cholP0` has in its first `T` steps. -/
structure Overstates (T : ℕ) (cholP0 : Matrix (Fin nx) (Fin nx) ℝ) (θ : ℕ → Par nx ny)
    (cholP0' : Matrix (Fin nx) (Fin nx) ℝ) (cholQ' : ℕ → Matrix (Fin nx) (Fin nx) ℝ)
    (cholR' : ℕ → Matrix (Fin ny) (Fin ny) ℝ) : Prop where
  init : Below (cholP0 * cholP0ᵀ) (cholP0' * cholP0'ᵀ)
  dyn : ∀ t < T, Below ((θ t).cholQ * (θ t).cholQᵀ) (cholQ' t * (cholQ' t)ᵀ)
  obs : ∀ t < T, Below ((θ t).cholR * (θ t).cholRᵀ) (cholR' t * (cholR' t)ᵀ)

/-- The noise factors `cholP0'`, `cholQ'` and `cholR'` give at most as much noise as the model `θ` with initial factor
`cholP0` has in its first `T` steps. -/
structure Understates (T : ℕ) (cholP0 : Matrix (Fin nx) (Fin nx) ℝ) (θ : ℕ → Par nx ny)
    (cholP0' : Matrix (Fin nx) (Fin nx) ℝ) (cholQ' : ℕ → Matrix (Fin nx) (Fin nx) ℝ)
    (cholR' : ℕ → Matrix (Fin ny) (Fin ny) ℝ) : Prop where
  init : Below (cholP0' * cholP0'ᵀ) (cholP0 * cholP0ᵀ)
  dyn : ∀ t < T, Below (cholQ' t * (cholQ' t)ᵀ) ((θ t).cholQ * (θ t).cholQᵀ)
  obs : ∀ t < T, Below (cholR' t * (cholR' t)ᵀ) ((θ t).cholR * (θ t).cholRᵀ)

end Cuthbert.Spec
