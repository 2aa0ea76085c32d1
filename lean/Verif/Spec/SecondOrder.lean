import Mathlib.MeasureTheory.Function.L2Space
import Verif.Spec.Generate

/-!
# Specification: linear models with uncorrelated noise

The random variables need not be Gaussian, and the noises need not be independent: only means and covariances are
prescribed.
-/

namespace Cuthbert.Spec
open MeasureTheory Matrix Generate

noncomputable section

variable {Ω : Type*} [MeasurableSpace Ω] {nx ny : ℕ}

/-- The noise of the transition from time `t` to time `t + 1`. -/
def dynNoise (θ : ℕ → Par nx ny) (x : ℕ → Ω → Fin nx → ℝ) (t : ℕ) (ω : Ω) : Fin nx → ℝ :=
  x (t + 1) ω - ((θ t).F *ᵥ x t ω + (θ t).c)

/-- The noise of the observation of the state at time `t + 1`. -/
def obsNoise (θ : ℕ → Par nx ny) (x : ℕ → Ω → Fin nx → ℝ) (y : ℕ → Ω → Fin ny → ℝ) (t : ℕ) (ω : Ω) : Fin ny → ℝ :=
  y t ω - ((θ t).H *ᵥ x (t + 1) ω + (θ t).d)

/-- The states `x 0, ..., x T` and the observations `y 0, ..., y (T - 1)`, of `x 1, ..., x T`, are square integrable;
the initial state has mean `m0` and covariance `cholP0 cholP0ᵀ`; the noises have mean zero and the covariances of the
model; initial state and noises are uncorrelated. -/
structure UncorrelatedModel (μ : Measure Ω) (T : ℕ) (m0 : Fin nx → ℝ) (cholP0 : Matrix (Fin nx) (Fin nx) ℝ)
    (θ : ℕ → Par nx ny) (x : ℕ → Ω → Fin nx → ℝ) (y : ℕ → Ω → Fin ny → ℝ) : Prop where
  init_sq : ∀ i, MemLp (fun ω => x 0 ω i) 2 μ
  dyn_sq : ∀ t < T, ∀ i, MemLp (fun ω => dynNoise θ x t ω i) 2 μ
  obs_sq : ∀ t < T, ∀ i, MemLp (fun ω => obsNoise θ x y t ω i) 2 μ
  init_mean : ∀ i, ∫ ω, x 0 ω i ∂μ = m0 i
  dyn_mean : ∀ t < T, ∀ i, ∫ ω, dynNoise θ x t ω i ∂μ = 0
  obs_mean : ∀ t < T, ∀ i, ∫ ω, obsNoise θ x y t ω i ∂μ = 0
  init_cov : ∀ i j, ∫ ω, (x 0 ω i - m0 i) * (x 0 ω j - m0 j) ∂μ = (cholP0 * cholP0ᵀ) i j
  dyn_cov : ∀ t < T, ∀ i j, ∫ ω, dynNoise θ x t ω i * dynNoise θ x t ω j ∂μ = ((θ t).cholQ * (θ t).cholQᵀ) i j
  obs_cov : ∀ t < T, ∀ i j, ∫ ω, obsNoise θ x y t ω i * obsNoise θ x y t ω j ∂μ = ((θ t).cholR * (θ t).cholRᵀ) i j
  dyn_init : ∀ t < T, ∀ i j, ∫ ω, dynNoise θ x t ω i * x 0 ω j ∂μ = 0
  obs_init : ∀ t < T, ∀ i j, ∫ ω, obsNoise θ x y t ω i * x 0 ω j ∂μ = 0
  dyn_dyn : ∀ t < T, ∀ s < T, s ≠ t → ∀ i j, ∫ ω, dynNoise θ x t ω i * dynNoise θ x s ω j ∂μ = 0
  obs_obs : ∀ t < T, ∀ s < T, s ≠ t → ∀ i j, ∫ ω, obsNoise θ x y t ω i * obsNoise θ x y s ω j ∂μ = 0
  dyn_obs : ∀ t < T, ∀ s < T, ∀ i j, ∫ ω, dynNoise θ x t ω i * obsNoise θ x y s ω j ∂μ = 0

/-- The steps of a run of length `T` on the data `y`, of which the components `seen` are given and the others missing. -/
def seenSteps (θ : ℕ → Par nx ny) (seen : ℕ → Fin ny → Bool) (T : ℕ) (y : ℕ → Fin ny → ℝ) : List (Step nx ny) :=
  (List.range T).map fun t => ⟨(θ t).F, (θ t).c, (θ t).cholQ, (θ t).H, (θ t).d, (θ t).cholR,
    fun i => if seen t i then some (y t i) else none⟩

/-- An affine function of the components that were seen before step `t`. -/
def affineIn (seen : ℕ → Fin ny → Bool) (t : ℕ) (a₀ : ℝ) (a : ℕ → Fin ny → ℝ) (y : ℕ → Fin ny → ℝ) : ℝ :=
  a₀ + ∑ s ∈ Finset.range t, ∑ i, if seen s i then a s i * y s i else 0

end

end Cuthbert.Spec
