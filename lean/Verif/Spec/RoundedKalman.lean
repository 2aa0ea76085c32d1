import Verif.Model.RoundedKalman

/-!
# Specification: accuracy of covariance factors
-/

namespace Cuthbert.Spec
open Matrix

variable {n k l : ℕ}

/-- The variance of `x · X` if `X` has covariance `L Lᵀ`. -/
def varAlong (L : Matrix (Fin n) (Fin k) ℝ) (x : Fin n → ℝ) : ℝ := (x ᵥ* L) ⬝ᵥ (x ᵥ* L)

/-- The factors `A` and `B` give every linear combination the same variance up to a factor `exp η`. -/
def SpreadNear (η : ℝ) (A : Matrix (Fin n) (Fin k) ℝ) (B : Matrix (Fin n) (Fin l) ℝ) : Prop :=
  ∀ x, varAlong B x ≤ Real.exp η * varAlong A x ∧ varAlong A x ≤ Real.exp η * varAlong B x

/-- A triangularisation that returns a lower triangular factor of the wanted covariance, up to a factor `exp ε` in every
direction. -/
structure _root_.Cuthbert.Kalman.Triang.Accurate (tri : Kalman.Triang) (ε : ℝ) : Prop where
  lower : ∀ {n k : ℕ} (A : Matrix (Fin n) (Fin k) ℝ) (h : n ≤ k) (i j : Fin n), i < j → tri.sq A h i j = 0
  near : ∀ {n k : ℕ} (A : Matrix (Fin n) (Fin k) ℝ) (h : n ≤ k), SpreadNear ε A (tri.sq A h)

/-- Euclidean length. -/
noncomputable def size (v : Fin n → ℝ) : ℝ := Real.sqrt (v ⬝ᵥ v)

/-- The error of the correction of the mean by a standardised innovation of length one, in standard deviations, if covariances
are known up to `exp η`. -/
noncomputable def gainErr (η : ℝ) : ℝ := Real.sinh η * Real.exp (η / 2)

/-- The error of the log-density of an innovation with `n` components and standardised length `ν`, if the mean is off by `c`
standard deviations and covariances are known up to `exp η`. -/
noncomputable def ellErr (n : ℕ) (η c ν : ℝ) : ℝ :=
  let δ := (Real.exp (η / 2) - 1) * ν + c
  δ * (2 * ν + δ) / 2 + n * η / 2

/-- The lengths of the standardised innovations of a run. -/
noncomputable def innovSize {nx ny : ℕ} (tri : Kalman.Triang) (steps : ℕ → Step nx ny) (m₀ : Fin nx → ℝ)
    (L₀ : Matrix (Fin nx) (Fin nx) ℝ) (t : ℕ) : ℝ :=
  match Kalman.onlineWith tri steps m₀ L₀ t with
  | some s => size s.white
  | none => 0

/-- The error of the mean after `t` steps, in standard deviations, for innovations of standardised lengths `ν 1, ν 2, …`. -/
noncomputable def meanErr (ε : ℝ) (ν : ℕ → ℝ) (t : ℕ) : ℝ :=
  ∑ j ∈ Finset.range t, gainErr (2 * (j + 1) * ε) * ν (j + 1)

/-- The error of the log-likelihood after `t` steps. -/
noncomputable def logErr (n : ℕ) (ε : ℝ) (ν : ℕ → ℝ) (t : ℕ) : ℝ :=
  ∑ j ∈ Finset.range t, ellErr n (2 * (j + 1) * ε) (meanErr ε ν j) (ν (j + 1))

/-- The lengths of the standardised innovations of a backward pass. -/
noncomputable def smoothSize {nx ny : ℕ} (tri : Kalman.Triang) (steps : ℕ → Step nx ny) (m₀ : Fin nx → ℝ)
    (L₀ : Matrix (Fin nx) (Fin nx) ℝ) (T k : ℕ) : ℝ :=
  match Kalman.smoothWith tri steps m₀ L₀ T k with
  | some s => size s.white
  | none => 0

/-- The error of the covariance of the prediction from time `t`. -/
def predErr (ε : ℝ) (t : ℕ) : ℝ := (2 * t + 1) * ε

/-- The relative error of the smoothing covariance `k` steps before time `T`. -/
noncomputable def smoothSpread (ε : ℝ) (T k : ℕ) : ℝ :=
  2 * T * ε + ∑ i ∈ Finset.range k,
    (2 * (Real.sinh (predErr ε (T - (i + 1))) * Real.exp (predErr ε (T - (i + 1)))) + ε)

/-- The error of the smoothing mean `k` steps before time `T`, in standard deviations, for innovations of the filter of standardised
lengths `ν` and innovations of the smoother of standardised lengths `σ`. -/
noncomputable def smoothErr (ε : ℝ) (ν σ : ℕ → ℝ) (T k : ℕ) : ℝ :=
  Real.sqrt (meanErr ε ν T ^ 2 + ∑ i ∈ Finset.range k,
    (meanErr ε ν (T - (i + 1)) + gainErr (predErr ε (T - (i + 1))) * σ (i + 1)) ^ 2)

end Cuthbert.Spec
