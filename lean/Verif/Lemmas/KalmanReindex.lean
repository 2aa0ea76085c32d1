import Verif.Lemmas.Kalman
import Verif.Lemmas.Bayes

/-!
# Reindexing observations, and Gaussian kernels as measures
-/

namespace Cuthbert
open MeasureTheory ProbabilityTheory Matrix
open scoped ENNReal

noncomputable section

set_option linter.unusedSectionVars false

section reindex
variable {ι ο ο' : Type*} [Fintype ι] [DecidableEq ι] [Fintype ο] [DecidableEq ο] [Fintype ο']
  [DecidableEq ο'] (e : ο' ≃ ο)

theorem innovCov_reindex (P : Matrix ι ι ℝ) (H : Matrix ο ι ℝ) (R : Matrix ο ο ℝ) :
    innovCov P (H.submatrix e id) (R.submatrix e e) = (innovCov P H R).submatrix e e := rfl

theorem mulVec_reindex (M : Matrix ο ο ℝ) (v : ο → ℝ) :
    M.submatrix e e *ᵥ (v ∘ e) = (M *ᵥ v) ∘ e := by
  rw [Matrix.submatrix_mulVec_equiv]
  simp [Function.comp_assoc]

theorem transpose_mulVec_reindex (H : Matrix ο ι ℝ) (v : ο → ℝ) :
    (H.submatrix e id)ᵀ *ᵥ (v ∘ e) = Hᵀ *ᵥ v := by
  funext i
  simp only [Matrix.mulVec, dotProduct, Matrix.transpose_apply, Matrix.submatrix_apply, id,
    Function.comp_apply]
  exact Equiv.sum_comp e fun j => H j i * v j

theorem condMean_reindex (m : ι → ℝ) (P : Matrix ι ι ℝ) (H : Matrix ο ι ℝ) (d : ο → ℝ)
    (R : Matrix ο ο ℝ) (y : ο → ℝ) :
    condMean m P (H.submatrix e id) (d ∘ e) (R.submatrix e e) (y ∘ e) = condMean m P H d R y := by
  rw [condMean, condMean, innovCov_reindex, Matrix.inv_submatrix_equiv]
  have h : y ∘ e - (H.submatrix e id *ᵥ m + d ∘ e) = (y - (H *ᵥ m + d)) ∘ e := rfl
  rw [h, mulVec_reindex, transpose_mulVec_reindex]

theorem condCov_reindex (P : Matrix ι ι ℝ) (H : Matrix ο ι ℝ) (R : Matrix ο ο ℝ) :
    condCov P (H.submatrix e id) (R.submatrix e e) = condCov P H R := by
  rw [condCov, condCov, innovCov_reindex, Matrix.inv_submatrix_equiv]
  have h : (H.submatrix e id)ᵀ * (innovCov P H R)⁻¹.submatrix e e * H.submatrix e id =
      Hᵀ * (innovCov P H R)⁻¹ * H := by
    rw [Matrix.transpose_submatrix, Matrix.submatrix_mul_equiv, Matrix.submatrix_mul_equiv,
      Matrix.submatrix_id_id]
  rw [h]

end reindex

/-! ## Kernels -/

theorem measurable_gauss_kernel {ι ο κ : Type*} [Fintype ι] [Fintype ο] [Fintype κ]
    (F : Matrix ο ι ℝ) (c : ο → ℝ) (B : Matrix ο κ ℝ) :
    Measurable fun x : ι → ℝ => gauss (F *ᵥ x + c) B := by
  refine Measure.measurable_of_measurable_coe _ fun s hs => ?_
  have hm : Measurable fun x : ι → ℝ => F *ᵥ x + c := (measurable_mulVec F).add measurable_const
  have h := measurable_lintegral_kernel _ hm B (f := fun q => s.indicator 1 q.2)
    ((measurable_one.indicator hs).comp measurable_snd)
  have h2 : ∀ x : ι → ℝ, ∫⁻ y, s.indicator 1 y ∂gauss (F *ᵥ x + c) B = gauss (F *ᵥ x + c) B s :=
    fun x => lintegral_indicator_one hs
  simpa only [h2] using h

/-- Two measures with the same integrals are equal. -/
theorem measure_ext_lintegral {α : Type*} [MeasurableSpace α] {μ ν : Measure α}
    (h : ∀ f : α → ℝ≥0∞, Measurable f → ∫⁻ x, f x ∂μ = ∫⁻ x, f x ∂ν) : μ = ν := by
  ext s hs
  have := h (s.indicator 1) (measurable_one.indicator hs)
  rwa [lintegral_indicator_one hs, lintegral_indicator_one hs] at this

namespace Kalman
variable {nx ny : ℕ}

/-- A fully observed `y`: the observed index set is everything. -/
def obsAll (y : Fin ny → ℝ) : Fin ny ≃ Obs (fun i => some (y i)) where
  toFun i := ⟨i, rfl⟩
  invFun i := i.1
  left_inv _ := rfl
  right_inv _ := rfl

/-- `update` with a fully observed `y`. -/
theorem update_full (qr : QR) (m : Fin nx → ℝ) (cP : Matrix (Fin nx) (Fin nx) ℝ)
    (H : Matrix (Fin ny) (Fin nx) ℝ) (d : Fin ny → ℝ) (cR : Matrix (Fin ny) (Fin ny) ℝ)
    (y : Fin ny → ℝ) (l₀ : ℝ) (hd : (innovCov (cP * cPᵀ) H (cR * cRᵀ)).det ≠ 0) :
    let r := update qr m cP H d cR (fun i => some (y i)) (some l₀)
    r.mean = some (condMean m (cP * cPᵀ) H d (cR * cRᵀ) y) ∧
    r.chol * r.cholᵀ = condCov (cP * cPᵀ) H (cR * cRᵀ) ∧ IsLower r.chol ∧
    r.ell = some (gaussLogDensity (H *ᵥ m + d) (innovCov (cP * cPᵀ) H (cR * cRᵀ)) y + l₀) := by
  intro r
  set y' : Fin ny → Option ℝ := fun i => some (y i) with hy'
  have e1 : innovCov (cP * cPᵀ) H (cR * cRᵀ) =
      (innovCov (cP * cPᵀ) (obsH y' H) (obsL y' cR * (obsL y' cR)ᵀ)).submatrix (obsAll y) (obsAll y) := rfl
  have hd' : (innovCov (cP * cPᵀ) (obsH y' H) (obsL y' cR * (obsL y' cR)ᵀ)).det ≠ 0 := by
    rw [e1, Matrix.det_submatrix_equiv_self] at hd; exact hd
  obtain ⟨h1, h2, h3, h4⟩ := update_eq qr m cP H d cR y' l₀ hd'
  refine ⟨?_, ?_, h3, ?_⟩
  · rw [h1, ← condMean_reindex (obsAll y)]; rfl
  · rw [h2, ← condCov_reindex (obsAll y)]; rfl
  · rw [h4, ← gaussLogDensity_reindex (obsAll y)]; rfl

end Kalman

end

end Cuthbert
