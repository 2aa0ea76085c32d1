import Verif.Spec.Arith

/-!
# Specification: accuracy of the exponential function
-/

namespace Cuthbert.Discrete
open Fl

/-- An accurate arithmetic whose exponential function is also accurate up to `1`, returns a tiny number or zero below `-B`,
and only returns numbers that `fl` does not change. -/
structure Arith.AccurateExp (A : Arith) (fl : ℝ → ℝ) (u B : ℝ) : Prop where
  accurate : A.Accurate u B
  exp_range : ∀ x, -B ≤ x → x ≤ 1 → ∃ c, A.exp (fin x) = fin c ∧ Near u (Real.exp x) c
  exp_under : ∀ x, x < -B → ∃ c, A.exp (fin x) = fin c ∧ 0 ≤ c ∧ c ≤ Real.exp (-B)
  exp_float : ∀ x c, A.exp x = fin c → fl c = c

end Cuthbert.Discrete
