import Mathlib.LinearAlgebra.Matrix.PosDef
import Verif.Spec.LGSSM

/-!
# Specification: one linear-Gaussian model is at least as noisy as another
-/

namespace Cuthbert.Spec
open Matrix

variable {nx ny : ℕ}

/-- `A ≤ B` in the Loewner order. -/
def Below {ι : Type*} (A B : Matrix ι ι ℝ) : Prop := (B - A).PosSemidef

/-- The transition and the observation of `s'` are those of `s` with at least as much noise, and `s'` observes at
most the components that `s` observes. Offsets and observed values may differ. -/
structure Noisier (s s' : Step nx ny) : Prop where
  F : s'.F = s.F
  H : s'.H = s.H
  Q : Below (s.cholQ * s.cholQᵀ) (s'.cholQ * s'.cholQᵀ)
  R : Below (s.cholR * s.cholRᵀ) (s'.cholR * s'.cholRᵀ)
  observed : ∀ i, (s'.y i).isSome → (s.y i).isSome

end Cuthbert.Spec
