import Mathlib.Data.Real.Basic
import Mathlib.Algebra.BigOperators.Fin

/-!
# Specification: finite hidden Markov models by path sums

`trans t i j` is the probability of moving from state `i` at time `t` to state `j` at time
`t + 1`, and `lik t j` the likelihood of the observation made at time `t + 1` in state `j`. There is
no observation at time 0. A path up to time `T` is a function on `Fin (T + 1)`.
-/

namespace Cuthbert.Spec

/-- A finite hidden Markov model with the likelihoods of the observed data. -/
structure HMM (X : Type*) where
  init : X → ℝ
  trans : ℕ → X → X → ℝ
  lik : ℕ → X → ℝ

namespace HMM
variable {X : Type*} [Fintype X] [DecidableEq X] (M : HMM X)

/-- Joint probability of a state path up to time `T` and the observations `y_1..y_T`. -/
def joint (T : ℕ) (x : Fin (T + 1) → X) : ℝ :=
  M.init (x 0) * ∏ t : Fin T, M.trans t (x t.castSucc) (x t.succ) * M.lik t (x t.succ)

/-- `p(y_1..y_T)`. -/
def evidence (T : ℕ) : ℝ := ∑ x : Fin (T + 1) → X, M.joint T x

/-- `p(x_T = k, y_1..y_T)`. -/
def filterJoint (T : ℕ) (k : X) : ℝ :=
  ∑ x : Fin (T + 1) → X, if x (Fin.last T) = k then M.joint T x else 0

/-- `p(x_t = k, y_1..y_T)` for `t ≤ T`. -/
def smoothJoint (T : ℕ) (t : Fin (T + 1)) (k : X) : ℝ :=
  ∑ x : Fin (T + 1) → X, if x t = k then M.joint T x else 0

/-- The filtering distribution `P(x_T = k | y_1..y_T)`. -/
noncomputable def filterLaw (T : ℕ) (k : X) : ℝ := M.filterJoint T k / M.evidence T

/-- The smoothing distribution `P(x_t = k | y_1..y_T)`. -/
noncomputable def smoothLaw (T : ℕ) (t : Fin (T + 1)) (k : X) : ℝ :=
  M.smoothJoint T t k / M.evidence T

end HMM

end Cuthbert.Spec
