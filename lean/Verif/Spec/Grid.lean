import Verif.Spec.HMM
import Verif.Spec.LGSSM

/-!
# Specification: several steps of a linear-Gaussian model amount to one step of another

Likewise for finite hidden Markov models.
-/

namespace Cuthbert.Spec
open MeasureTheory
open scoped ENNReal

variable {nx ny ny' : ℕ}

/-- Going through the steps `b`, with their observations, has the same effect on the state as the single step `s`. -/
def Amounts (b : List (Step nx ny)) (s : Step nx ny') : Prop :=
  ∀ φ : (Fin nx → ℝ) → ℝ≥0∞, Measurable φ → ∀ x, pathExp b (fun p => φ (p b.length)) x = pathExp [s] (fun p => φ (p 1)) x

/-- The time on the fine grid that corresponds to the time `t` on the coarse one. -/
def fineTime {α : Type*} (blocks : List (List α)) (t : ℕ) : ℕ := (blocks.take t).flatten.length

variable {X : Type*} [Fintype X] [DecidableEq X]

/-- Probability of getting from `i` at time `t` to `j` at time `t + m` and of making the observations on the way. -/
def HMM.through (M : HMM X) (t : ℕ) : ℕ → X → X → ℝ
  | 0, i, j => if i = j then 1 else 0
  | m + 1, i, j => ∑ k, M.through t m i k * (M.trans (t + m) k j * M.lik (t + m) j)

/-- Step `t` of `M'` amounts to the `m t` steps of `M` from time `m 0 + ... + m (t - 1)` on. -/
structure HMM.Subdivides (M M' : HMM X) (m : ℕ → ℕ) : Prop where
  init : M'.init = M.init
  step : ∀ t i j, M'.trans t i j * M'.lik t j = M.through (∑ r ∈ Finset.range t, m r) (m t) i j

end Cuthbert.Spec
