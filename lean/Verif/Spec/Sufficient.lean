import Verif.Spec.LGSSM

/-!
# Specification: what an observation says about the state
-/

namespace Cuthbert.Spec
open Matrix

noncomputable section

variable {nx ny ny' : ℕ}

/-- The precision that the observed components contribute, `Hᵀ R⁻¹ H`. -/
def infoMatrix (s : Step nx ny) : Matrix (Fin nx) (Fin nx) ℝ := (obsH s.y s.H)ᵀ * s.R⁻¹ * obsH s.y s.H

/-- The observed components weighted by their precision, `Hᵀ R⁻¹ (y - d)`. -/
def infoVector (s : Step nx ny) : Fin nx → ℝ := (obsH s.y s.H)ᵀ *ᵥ (s.R⁻¹ *ᵥ (obsY s.y - obsV s.y s.d))

/-- The log density of the observed components if the state is zero. -/
def logDensityAtZero (s : Step nx ny) : ℝ := gaussLogDensity (obsV s.y s.d) s.R (obsY s.y)

/-- Two steps with the same transition, whose observations may differ in number and kind but contribute the same precision
and the same weighted observation. -/
structure SameInformation (s : Step nx ny) (s' : Step nx ny') : Prop where
  F : s'.F = s.F
  c : s'.c = s.c
  Q : s'.cholQ * s'.cholQᵀ = s.cholQ * s.cholQᵀ
  matrix : infoMatrix s' = infoMatrix s
  vector : infoVector s' = infoVector s

end

end Cuthbert.Spec
