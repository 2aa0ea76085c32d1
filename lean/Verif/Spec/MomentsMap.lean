import Verif.Model.Linearize

/-!
# Specification: nonlinear models in other coordinates
-/

namespace Cuthbert.Spec
open Matrix Cuthbert.Linearize

variable {nx nx' ny : ℕ} {Inp : Type*}

/-- The callbacks give conditional moments `f` and `g` and the observation `y`, to be linearised at the mean of the state
they are called with. -/
structure LinearisesAtMean (cb : MCallbacks nx ny Inp) (f : Inp → MomentsFn nx nx) (g : Inp → MomentsFn nx ny)
    (y : Inp → Fin ny → Option ℝ) : Prop where
  dynamics : ∀ s u m, s.mean = some m → cb.getDynamics s u = (f u, m)
  observation : ∀ s u m, s.mean = some m → cb.getObservation s u = (g u, m, y u)

/-- Conditional moments `f'`, `g'` are `f`, `g` in the coordinates `T x + b`. -/
structure MomentsMap (T : Matrix (Fin nx') (Fin nx) ℝ) (b : Fin nx' → ℝ) (f : MomentsFn nx nx) (g : MomentsFn nx ny)
    (f' : MomentsFn nx' nx') (g' : MomentsFn nx' ny) : Prop where
  smooth_f : Differentiable ℝ fun x => (f x).1
  smooth_f' : Differentiable ℝ fun x => (f' x).1
  smooth_g' : Differentiable ℝ fun x => (g' x).1
  mean_f : ∀ x, (f' (T *ᵥ x + b)).1 = T *ᵥ (f x).1 + b
  noise_f : ∀ x, (f' (T *ᵥ x + b)).2 * ((f' (T *ᵥ x + b)).2)ᵀ = T * ((f x).2 * ((f x).2)ᵀ) * Tᵀ
  mean_g : ∀ x, (g' (T *ᵥ x + b)).1 = (g x).1
  noise_g : ∀ x, (g' (T *ᵥ x + b)).2 * ((g' (T *ᵥ x + b)).2)ᵀ = (g x).2 * ((g x).2)ᵀ

end Cuthbert.Spec
