import Mathlib.Data.Real.Basic
import Mathlib.Order.Monotone.Basic

/-!
# Specification: rounding of real numbers
-/

namespace Cuthbert

/-- The numbers `m 2^e` with a significand `m` of `p` bits. The range of exponents is not bounded. -/
def IsFloat (p : ℕ) (y : ℝ) : Prop := ∃ m e : ℤ, |m| < 2 ^ p ∧ y = m * 2 ^ e

/-- `fl` rounds to a nearest number with `p` bits; ties are broken arbitrarily. -/
def RoundsToNearest (p : ℕ) (fl : ℝ → ℝ) : Prop :=
  ∀ x, IsFloat p (fl x) ∧ ∀ y, IsFloat p y → |fl x - x| ≤ |y - x|

/-- `fl` is monotone, does not change its own results, and adds two of them with a relative error of at most `ε`. -/
structure Rounding (fl : ℝ → ℝ) (ε : ℝ) : Prop where
  eps_nonneg : 0 ≤ ε
  eps_le : ε ≤ 1
  mono : Monotone fl
  idem : ∀ x, fl (fl x) = fl x
  add_error : ∀ x y, fl x = x → fl y = y → |fl (x + y) - (x + y)| ≤ ε * |x + y|

end Cuthbert
