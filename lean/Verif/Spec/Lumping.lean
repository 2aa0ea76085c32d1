import Verif.Spec.HMM

/-!
# Specification: one hidden Markov model is obtained from another by merging states
-/

namespace Cuthbert.Spec

/-- `M'` is `M` observed through `f`: from every state the probability of moving into the class of `k` is that of `M'`,
and a state is as likely as its class. -/
structure Lumps {X X' : Type*} [Fintype X] [DecidableEq X'] (f : X → X') (M : HMM X) (M' : HMM X') : Prop where
  init : ∀ k, M'.init k = ∑ j with f j = k, M.init j
  trans : ∀ t i k, M'.trans t (f i) k = ∑ j with f j = k, M.trans t i j
  lik : ∀ t j, M'.lik t (f j) = M.lik t j

end Cuthbert.Spec
