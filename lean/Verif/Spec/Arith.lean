import Verif.Model.RoundedDiscrete
import Verif.Spec.Near

/-!
# Specification: accuracy of an arithmetic
-/

namespace Cuthbert.Discrete
open Fl

/-- The standard model of rounded arithmetic: every operation has a relative error of at most `u`, a sum of `N`
non-negative numbers one of `N u`, and the exponential function is accurate (does not underflow) down to `-B`. -/
structure Arith.Accurate (A : Arith) (u B : ℝ) : Prop where
  unit_nonneg : 0 ≤ u
  add : ∀ a b, ∃ c, A.add (fin a) (fin b) = fin c ∧ |c - (a + b)| ≤ u * |a + b|
  sub : ∀ a b, ∃ c, A.sub (fin a) (fin b) = fin c ∧ |c - (a - b)| ≤ u * |a - b|
  sub_ninf : ∀ b, A.sub ninf (fin b) = ninf
  mul : ∀ a b, 0 ≤ a → 0 ≤ b → ∃ c, A.mul (fin a) (fin b) = fin c ∧ Near u (a * b) c
  div : ∀ a b, 0 ≤ a → 0 < b → ∃ c, A.div (fin a) (fin b) = fin c ∧ Near u (a / b) c
  exp : ∀ x, -B ≤ x → x ≤ 0 → ∃ c, A.exp (fin x) = fin c ∧ Near u (Real.exp x) c
  exp_ninf : A.exp ninf = fin 0
  log : ∀ x, 0 < x → ∃ c, A.log (fin x) = fin c ∧ |c - Real.log x| ≤ u * |Real.log x|
  sum : ∀ {N : ℕ} (v : Fin N → ℝ), (∀ i, 0 ≤ v i) →
    ∃ c, (A.sum fun i => fin (v i)) = fin c ∧ Near (N * u) (∑ i, v i) c

end Cuthbert.Discrete
