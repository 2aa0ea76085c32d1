import Verif.Spec.LGSSM

/-!
# Specification: a linear-Gaussian model run backwards in time
-/

namespace Cuthbert.Spec
open Matrix

variable {nx ny : ℕ}

/-- The model `m₀', A₀', ss'` is the model `m₀, A₀, ss` run backwards from its final time `T` to time 0. The states have mean
`m t` and covariance `P t` at time `t`; a step of one model and the step of the other in the opposite direction give
neighbouring states the same covariance; the observations made of the states at times `1, ..., T - 1` are the same in reverse
order, and neither model has an observation in its last step. -/
structure ReversesLG (m : ℕ → Fin nx → ℝ) (P : ℕ → Matrix (Fin nx) (Fin nx) ℝ)
    (m₀ : Fin nx → ℝ) (A₀ : Matrix (Fin nx) (Fin nx) ℝ) (ss : List (Step nx ny))
    (m₀' : Fin nx → ℝ) (A₀' : Matrix (Fin nx) (Fin nx) ℝ) (ss' : List (Step nx ny)) : Prop where
  length : ss'.length = ss.length
  init : m₀ = m 0 ∧ A₀ * A₀ᵀ = P 0
  init' : m₀' = m ss.length ∧ A₀' * A₀'ᵀ = P ss.length
  forward : ∀ t s, ss[t]? = some s →
    m (t + 1) = s.F *ᵥ m t + s.c ∧ P (t + 1) = s.F * P t * s.Fᵀ + s.cholQ * s.cholQᵀ
  backward : ∀ t < ss.length, ∀ s', ss'[ss.length - 1 - t]? = some s' →
    m t = s'.F *ᵥ m (t + 1) + s'.c ∧ P t = s'.F * P (t + 1) * s'.Fᵀ + s'.cholQ * s'.cholQᵀ
  cross : ∀ t s s', ss[t]? = some s → ss'[ss.length - 1 - t]? = some s' → s'.F * P (t + 1) = P t * s.Fᵀ
  lik : ∀ t, t + 1 < ss.length → ∀ s s', ss[t]? = some s → ss'[ss.length - 2 - t]? = some s' →
    ∀ x, s'.lik x = s.lik x
  last : ∀ s, ss[ss.length - 1]? = some s → ∀ i, s.y i = none
  last' : ∀ s', ss'[ss.length - 1]? = some s' → ∀ i, s'.y i = none

end Cuthbert.Spec
