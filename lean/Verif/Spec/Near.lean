import Mathlib.Analysis.SpecialFunctions.Exp

/-!
# Specification: relative error
-/

namespace Cuthbert

/-- `b` approximates `a ≥ 0` with a relative error of `η`: it is at most `exp η` times too large or too small. -/
def Near (η a b : ℝ) : Prop := Real.exp (-η) * a ≤ b ∧ b ≤ Real.exp η * a

end Cuthbert
