import Mathlib.MeasureTheory.Measure.WithDensity
import Verif.Spec.SMC

/-!
# Specification: densities for backward sampling
-/

namespace Cuthbert.SMC
open MeasureTheory
open scoped ENNReal

noncomputable section

variable {X : Type} [MeasurableSpace X]

/-- `exp(ld x x')` is, up to a factor that depends on `x'` only, the density of the weighted transition
`G(x, x') M(x, dx')`: for some measure `ν`, `G(x, x') M(x, dx') = exp(ld x x') ν(dx')`. -/
structure BackwardDensity (s : FKStep X) (ld : X → X → Fl) : Prop where
  isLog : ∀ x x', (ld x x').IsLog
  measurable : Measurable fun q : X × X => ld q.1 q.2
  density : ∃ ν : Measure X, ∀ x,
    (s.kernel x).withDensity (s.pot x) = ν.withDensity fun x' => ENNReal.ofReal (ld x x').lik

end

end Cuthbert.SMC
