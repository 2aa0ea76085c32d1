import Verif.Spec.LGSSM
import Verif.Spec.HMM

/-!
# Specification: constraints that the states of a model satisfy
-/

namespace Cuthbert.Spec
open Matrix

variable {nx ny k : ℕ}

/-- If `C x = b` before the step then `C' x' = b'` after it, whatever the noise. -/
def Keeps (C : Matrix (Fin k) (Fin nx) ℝ) (b : Fin k → ℝ) (s : Step nx ny) (C' : Matrix (Fin k) (Fin nx) ℝ)
    (b' : Fin k → ℝ) : Prop :=
  ∀ x w : Fin nx → ℝ, C *ᵥ x = b → C' *ᵥ (s.F *ᵥ x + s.c + s.cholQ *ᵥ w) = b'

/-- The initial state satisfies `C x = b`, whatever its noise. -/
def Starts (C : Matrix (Fin k) (Fin nx) ℝ) (b : Fin k → ℝ) (m0 : Fin nx → ℝ) (cholP0 : Matrix (Fin nx) (Fin nx) ℝ) : Prop :=
  ∀ w : Fin nx → ℝ, C *ᵥ (m0 + cholP0 *ᵥ w) = b

/-- The state at time `t` is in the set `A t` for certain. -/
structure HMM.StaysIn {X : Type*} (M : HMM X) (A : ℕ → Set X) (T : ℕ) : Prop where
  init : ∀ i, i ∉ A 0 → M.init i = 0
  trans : ∀ t < T, ∀ i ∈ A t, ∀ j, j ∉ A (t + 1) → M.trans t i j = 0

end Cuthbert.Spec
