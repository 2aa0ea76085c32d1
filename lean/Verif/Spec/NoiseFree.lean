import Verif.Spec.LGSSM

/-!
# Specification: observations without noise
-/

namespace Cuthbert.Spec
open Matrix

variable {nx ny : ℕ}

/-- The combination `w` of the observed components of `y = H x + d + cholR v` contains no noise. -/
structure NoiseFree (s : Step nx ny) (w : Fin ny → ℝ) : Prop where
  observed : ∀ i, s.y i = none → w i = 0
  exact : w ᵥ* s.cholR = 0

end Cuthbert.Spec
