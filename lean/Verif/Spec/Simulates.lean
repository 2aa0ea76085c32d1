import Verif.Spec.FeynmanKac
import Verif.Spec.HMM
import Verif.Spec.SMC

/-!
# Specification: the callbacks of a particle filter describe a given model

For a hidden Markov model and for a linear-Gaussian model; the laws of the draws and the potentials are those
of the model. `P` is the law of a fresh key.
-/

namespace Cuthbert.SMC
open MeasureTheory Matrix
open scoped ENNReal

noncomputable section

variable {K Inp : Type} [MeasurableSpace K]

/-- The callbacks draw from the hidden Markov model `M` and weight by its likelihoods; `us` are the inputs of the
transitions. -/
structure SimulatesHMM {X : Type} (P : Measure K) (mdl : FKModel K X Inp) (M : Spec.HMM X) (u0 : Inp)
    (us : List Inp) : Prop where
  init : ∀ j, P {k | mdl.initSample k u0 = j} = ENNReal.ofReal (M.init j)
  trans : ∀ (t : ℕ) u, us[t]? = some u → ∀ i j, P {k | mdl.propagate k i u = j} = ENNReal.ofReal (M.trans t i j)
  lik : ∀ (t : ℕ) u, us[t]? = some u → ∀ i j, (mdl.logPotential i j u).lik = M.lik t j

/-- The callbacks draw from the linear-Gaussian model with initial law `N(m0, cholP0 cholP0ᵀ)` and the given steps,
and weight by the Gaussian likelihoods of what was observed. -/
structure SimulatesLGSSM {nx ny : ℕ} (P : Measure K) (mdl : FKModel K (Fin nx → ℝ) Inp) (m0 : Fin nx → ℝ)
    (cholP0 : Matrix (Fin nx) (Fin nx) ℝ) (step : Inp → Step nx ny) (u0 : Inp) (us : List Inp) : Prop where
  init : P.map (fun k => mdl.initSample k u0) = gauss m0 cholP0
  trans : ∀ u ∈ us, ∀ x, P.map (fun k => mdl.propagate k x u) = gauss ((step u).F *ᵥ x + (step u).c) (step u).cholQ
  lik : ∀ u ∈ us, ∀ x x', ENNReal.ofReal (mdl.logPotential x x' u).lik = (step u).lik x'

end

end Cuthbert.SMC
