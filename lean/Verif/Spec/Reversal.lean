import Verif.Spec.HMM

/-!
# Specification: a hidden Markov model run backwards in time
-/

namespace Cuthbert.Spec.HMM

variable {X : Type*}

/-- `M'` is `M` run backwards from time `T` to time 0. The states have the laws `p t` at time `t`; the probability of a
transition is that of the transition in the opposite direction by Bayes' rule; the observations made of the states at
times `1, ..., T - 1` are the same in reverse order, and neither model has an observation in its last step. -/
structure Reverses (p : ℕ → X → ℝ) (T : ℕ) (M M' : HMM X) : Prop where
  init : ∀ i, M.init i = p 0 i
  init' : ∀ i, M'.init i = p T i
  trans : ∀ t < T, ∀ i j, p t i * M.trans t i j = p (t + 1) j * M'.trans (T - 1 - t) j i
  lik : ∀ t, t + 1 < T → ∀ i, M'.lik (T - 2 - t) i = M.lik t i
  last : ∀ i, M.lik (T - 1) i = 1
  last' : ∀ i, M'.lik (T - 1) i = 1

end Cuthbert.Spec.HMM
