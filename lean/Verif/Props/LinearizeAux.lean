import Verif.Model.LinearizeAux
import Verif.Props.Linearize

/-!
# Auxiliary outputs do not change a linearisation (C96)
-/

namespace Cuthbert.Linearize
open Matrix Asymptotics Topology

noncomputable section

variable {nx ny n : ℕ} {Aux : Type*}

/-- **C96** (log densities). With `has_aux` the linearisation is that of the numerical part, followed by the auxiliary
value at the linearisation point. Without it the function must not return an auxiliary value. -/
theorem linearize_log_density_aux (qr : QR) (svd : SVD) (rtol : ℝ) (ignoreNanDims : Bool) (d : CondDensity nx ny)
    (aux : (Fin nx → Option ℝ) × (Fin ny → Option ℝ) → Aux) (x : Fin nx → Option ℝ) (y : Fin ny → Option ℝ) :
    ∃ F c L, linearizeLogDensity qr svd rtol ignoreNanDims d x y = (F, c, L) ∧
      linearizeLogDensityAux qr svd rtol true ignoreNanDims (.withAux d aux) x y = .ok (F, c, L, some (aux (x, y))) ∧
      linearizeLogDensityAux (Aux := Aux) qr svd rtol false ignoreNanDims (.plain d) x y = .ok (F, c, L, none) ∧
      linearizeLogDensityAux (Aux := Aux) qr svd rtol true ignoreNanDims (.plain d) x y = .error .typeError ∧
      linearizeLogDensityAux qr svd rtol false ignoreNanDims (.withAux d aux) x y = .error .typeError :=
  ⟨_, _, _, rfl, rfl, rfl, rfl, rfl⟩

/-- **C96** (given a covariance factor). -/
theorem linearize_given_chol_cov_aux (ignoreNanDims : Bool) (d : CondDensity nx ny)
    (aux : (Fin nx → Option ℝ) × (Fin ny → Option ℝ) → Aux) (x : Fin nx → Option ℝ) (y : Fin ny → Option ℝ)
    (L : NMat ny) :
    ∃ F c, linearizeGivenCholCov ignoreNanDims d x y L = (F, c) ∧
      linearizeGivenCholCovAux true ignoreNanDims (.withAux d aux) x y L = .ok (F, c, some (aux (x, y))) ∧
      linearizeGivenCholCovAux (Aux := Aux) false ignoreNanDims (.plain d) x y L = .ok (F, c, none) :=
  ⟨_, _, rfl, rfl, rfl⟩

/-- **C96** (moments). -/
theorem linearize_moments_aux (f : MomentsFn nx ny) (aux : (Fin nx → ℝ) → Aux) (x : Fin nx → ℝ) :
    ∃ F c L, linearizeMoments f x = (F, c, L) ∧
      linearizeMomentsAux true (.withAux f aux) x = .ok (F, c, L, some (aux x)) ∧
      linearizeMomentsAux (Aux := Aux) false (.plain f) x = .ok (F, c, L, none) ∧
      linearizeMomentsAux (Aux := Aux) true (.plain f) x = .error .valueError ∧
      linearizeMomentsAux false (.withAux f aux) x = .error .valueError :=
  ⟨_, _, _, rfl, rfl, rfl, rfl, rfl⟩

/-- **C96** (potentials). -/
theorem linearize_taylor_aux (qr : QR) (svd : SVD) (rtol : ℝ) (ignoreNanDims : Bool) (d : Potential n)
    (aux : (Fin n → Option ℝ) → Aux) (x : Fin n → Option ℝ) :
    ∃ m L, linearizeTaylor qr svd rtol ignoreNanDims d x = (m, L) ∧
      linearizeTaylorAux qr svd rtol true ignoreNanDims (.withAux d aux) x = .ok (m, L, some (aux x)) ∧
      linearizeTaylorAux (Aux := Aux) qr svd rtol false ignoreNanDims (.plain d) x = .ok (m, L, none) ∧
      linearizeTaylorAux (Aux := Aux) qr svd rtol true ignoreNanDims (.plain d) x = .error .typeError ∧
      linearizeTaylorAux qr svd rtol false ignoreNanDims (.withAux d aux) x = .error .typeError :=
  ⟨_, _, rfl, rfl, rfl, rfl, rfl⟩

/-! ## What the results mean -/

/-- **C96** (exactness with an auxiliary output). For a Gaussian conditional log density that also returns a value, the
call with `has_aux=True` returns the rows of `H` and `d` and a factor of `R` for the observed components, and the
value computed at the linearisation point. -/
theorem linearize_log_density_aux_exact (qr : QR) (svd : SVD) (rtol : ℝ) (hr : 0 ≤ rtol) (ign : Bool)
    (p : CondDensity nx ny) (hAD : p.AD) (aux : (Fin nx → Option ℝ) × (Fin ny → Option ℝ) → Aux)
    (H : Matrix (Fin ny) (Fin nx) ℝ) (d : Fin ny → ℝ) (R : Matrix (Fin ny) (Fin ny) ℝ) (x : Fin nx → ℝ)
    (y : Fin ny → Option ℝ) (hign : ign = true ∨ ∀ i, y i ≠ none)
    (hR : WellConditioned rtol (R.submatrix Subtype.val Subtype.val : Matrix (Obs y) (Obs y) ℝ))
    (c : ℝ) (hp : ∀ (x : Fin nx → ℝ) (z : Obs y → ℝ), p.value x (fillObs y z) =
      gaussLogDensity (obsH y H *ᵥ x + obsV y d) (R.submatrix Subtype.val Subtype.val) z + c) :
    ∃ F b M, linearizeLogDensityAux qr svd rtol true ign (.withAux p aux) (fun k => some (x k)) y =
        .ok (F, b, M, some (aux (fun k => some (x k), y))) ∧
      ∃ L : Matrix (Obs y) (Obs y) ℝ, (∀ (i : Obs y) j, F i.1 j = some (H i.1 j)) ∧ (∀ i : Obs y, b i.1 = some (d i.1)) ∧
        (∀ i j : Obs y, M i.1 j.1 = some (L i j)) ∧ L * Lᵀ = R.submatrix Subtype.val Subtype.val := by
  obtain ⟨L, h1, h2, h3, -, h4, -⟩ := linearize_log_density_exact qr svd rtol hr ign p hAD H d R x y hign hR c hp
  obtain ⟨F, b, M, he, ha, -⟩ := linearize_log_density_aux qr svd rtol ign p aux (fun k => some (x k)) y
  rw [he] at h1 h2 h3
  exact ⟨F, b, M, ha, L, h1, h2, h3, h4⟩

/-- **C96** (tangency with an auxiliary output). -/
theorem linearize_moments_aux_tangent (f : MomentsFn nx ny) (aux : (Fin nx → ℝ) → Aux) (x : Fin nx → ℝ)
    (hf : DifferentiableAt ℝ (fun x => (f x).1) x) :
    ∃ F b, linearizeMomentsAux true (.withAux f aux) x = .ok (F, b, (f x).2, some (aux x)) ∧
      F *ᵥ x + b = (f x).1 ∧ (fun x' => (f x').1 - (F *ᵥ x' + b)) =o[𝓝 x] fun x' => x' - x := by
  obtain ⟨h1, h2, h3⟩ := linearize_moments_tangent f x hf
  obtain ⟨F, b, M, he, ha, -⟩ := linearize_moments_aux f aux x
  rw [he] at h1 h2 h3
  exact ⟨F, b, by rw [ha, ← h3], h1, h2⟩

/-- **C96** (potentials with an auxiliary output). -/
theorem linearize_taylor_aux_exact (qr : QR) (svd : SVD) (rtol : ℝ) (hr : 0 ≤ rtol) (ign : Bool) (p : Potential n)
    (hAD : p.AD) (aux : (Fin n → Option ℝ) → Aux) (x : Fin n → ℝ) (y : Fin n → Option ℝ)
    (hign : ign = true ∨ ∀ i, y i ≠ none) (m : Obs y → ℝ) (P : Matrix (Obs y) (Obs y) ℝ) (hP : WellConditioned rtol P)
    (c : ℝ) (hp : ∀ x, p.value x = gaussLogDensity m P (fun i => x i.1) + c) :
    ∃ μ M, linearizeTaylorAux qr svd rtol true ign (.withAux p aux) (fun k => some (x k)) =
        .ok (μ, M, some (aux fun k => some (x k))) ∧
      ∃ L : Matrix (Obs y) (Obs y) ℝ, L * Lᵀ = P ∧ (∀ i : Obs y, μ i.1 = some (m i)) ∧
        (∀ i, y i = none → μ i = some (x i)) ∧ ∀ i j : Obs y, M i.1 j.1 = some (L i j) := by
  obtain ⟨L, -, h1, h2, h3, h4, -⟩ := linearize_taylor_exact qr svd rtol hr ign p hAD x y hign m P hP c hp
  obtain ⟨μ, M, he, ha, -⟩ := linearize_taylor_aux qr svd rtol ign p aux fun k => some (x k)
  rw [he] at h2 h3 h4
  exact ⟨μ, M, ha, L, h1, h2, h3, h4⟩

/-- Non-vacuity for C96: Gaussian densities with a contract for automatic differentiation exist, for every `H`, `d` and
`R`; identity covariances are well conditioned. -/
example (H : Matrix (Fin 2) (Fin 3) ℝ) (d : Fin 2 → ℝ) : ∃ p : CondDensity 3 2, p.AD ∧
    ∀ (y : Fin 2 → Option ℝ) (x : Fin 3 → ℝ) (z : Obs y → ℝ), p.value x (fillObs y z) =
      gaussLogDensity (obsH y H *ᵥ x + obsV y d) ((1 : Matrix (Fin 2) (Fin 2) ℝ).submatrix Subtype.val Subtype.val) z +
        0 := exists_gaussian_condDensity H d 1

end

end Cuthbert.Linearize
