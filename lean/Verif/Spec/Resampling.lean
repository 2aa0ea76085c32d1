import Mathlib.Order.Interval.Finset.Fin
import Verif.Model.Fl

/-!
# Specification: weighted particles and inverse distribution functions

Nothing here refers to any algorithm.
-/

namespace Cuthbert

noncomputable section

variable {N : ℕ}

/-- Log-weights of a particle system: no `nan` or `+∞`, and at least one particle of positive
weight. -/
def IsLogits (l : Fin N → Fl) : Prop := (∀ i, (l i).IsLog) ∧ ∃ i, (l i).IsFin

/-- The normalised weight `w_i / ∑ w_j` for log-weights `l`, where `-∞` stands for weight `0`. -/
def nw (l : Fin N → Fl) (i : Fin N) : ℝ := (l i).lik / ∑ j, (l j).lik

/-- `w_0 + ... + w_{i-1}`. -/
def cumBelow (w : Fin N → ℝ) (i : Fin N) : ℝ := ∑ j ∈ Finset.Iio i, w j

/-- `w_0 + ... + w_i`. -/
def cum (w : Fin N → ℝ) (i : Fin N) : ℝ := ∑ j ∈ Finset.Iic i, w j

/-- `i` is the smallest index whose cumulative weight reaches `u`, or the last index if none
does. -/
def IsQuantile (w : Fin N → ℝ) (u : ℝ) (i : Fin N) : Prop :=
  (∀ j < i, cum w j < u) ∧ (u ≤ cum w i ∨ (i : ℕ) + 1 = N)

end

end Cuthbert
