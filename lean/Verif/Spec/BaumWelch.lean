import Verif.Spec.HMM
import Mathlib.Analysis.SpecialFunctions.Log.Basic

/-!
# Specification: expectation maximisation for finite hidden Markov models
-/

namespace Cuthbert.Spec.HMM

variable {X : Type*} [Fintype X] [DecidableEq X] (M : HMM X)

/-- `p(x_t = i, x_{t+1} = j, y_1..y_T)`. -/
def stepJoint (T : ℕ) (t : Fin T) (i j : X) : ℝ :=
  ∑ x : Fin (T + 1) → X, if x t.castSucc = i ∧ x t.succ = j then M.joint T x else 0

/-- `P(x_t = i, x_{t+1} = j | y_1..y_T)`. -/
noncomputable def stepLaw (T : ℕ) (t : Fin T) (i j : X) : ℝ := M.stepJoint T t i j / M.evidence T

/-- The logarithm of the joint probability of states and data under `M`, averaged over states with the distribution `γ`
of `x_0` and the distributions `ξ t` of `(x_t, x_{t+1})`. -/
noncomputable def objective (T : ℕ) (γ : X → ℝ) (ξ : Fin T → X → X → ℝ) : ℝ :=
  ∑ i, γ i * Real.log (M.init i) +
    ∑ t, ∑ i, ∑ j, ξ t i j * (Real.log (M.trans t i j) + Real.log (M.lik t j))

/-- Expected number of transitions from `i` to `j`. -/
def counts {T : ℕ} (ξ : Fin T → X → X → ℝ) (i j : X) : ℝ := ∑ t, ξ t i j

/-- The update of the initial distribution and of a transition matrix that is the same at all times: relative expected
counts. Rows of states that are never left keep their values. -/
structure BaumWelchUpdate (M M' : HMM X) {T : ℕ} (γ : X → ℝ) (ξ : Fin T → X → X → ℝ) : Prop where
  init : ∀ i, M'.init i = γ i
  trans : ∀ t i j, M'.trans t i j =
    if ∑ k, counts ξ i k = 0 then M.trans t i j else counts ξ i j / ∑ k, counts ξ i k
  lik : ∀ t j, M'.lik t j = M.lik t j

end Cuthbert.Spec.HMM
