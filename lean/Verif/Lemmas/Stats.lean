import Verif.Model.Stats
import Verif.Lemmas.Linalg
import Verif.Lemmas.Gaussian
import Verif.Props.Linalg

/-!
# Lemmas about the Gaussian log density
-/

namespace Cuthbert
open Matrix

noncomputable section

variable {n k : ℕ} {ι κ ν : Type*} [Fintype ι] [Fintype κ] [Fintype ν] [DecidableEq ι]
  [DecidableEq κ] [DecidableEq ν]

/-- For a lower-triangular nonsingular factor the matrix branch is the textbook log density. -/
theorem logpdfMat_eq (x m : Fin n → ℝ) (L : Matrix (Fin n) (Fin n) ℝ) (hl : IsLower L)
    (hd : (L * Lᵀ).det ≠ 0) : logpdfMat x m L = some (gaussLogDensity m (L * Lᵀ) x) := by
  have hdiag : ∀ i, L i i ≠ 0 := hl.diag_ne_zero_iff_gram.mpr hd
  have hLd : L.det ≠ 0 := hl.det_ne_zero_iff.mpr hdiag
  rw [logpdfMat, solveLowerVec, if_pos hdiag, lowerPart_eq hl]
  simp only [Option.map_some, Option.some.injEq]
  have h1 : (L⁻¹ *ᵥ (x - m)) ⬝ᵥ (L⁻¹ *ᵥ (x - m)) = (x - m) ⬝ᵥ (L * Lᵀ)⁻¹ *ᵥ (x - m) := by
    rw [Matrix.mul_inv_rev, ← Matrix.mulVec_mulVec, dotProduct_mulVec (x - m), ← Matrix.mulVec_transpose,
      ← Matrix.transpose_nonsing_inv, Matrix.transpose_transpose]
  have h2 : Real.log (L * Lᵀ).det = 2 * ∑ i, Real.log |L i i| := by
    rw [Matrix.det_mul, Matrix.det_transpose, Real.log_mul hLd hLd, hl.det, Real.log_prod fun i _ => hdiag i]
    simp only [Real.log_abs]
    ring
  rw [gaussLogDensity, h1, h2, Fintype.card_fin]
  ring

/-- Matrix branch with a singular lower triangle: not finite. -/
theorem logpdfMat_none (x m : Fin n → ℝ) (L : Matrix (Fin n) (Fin n) ℝ) (hl : IsLower L)
    (hd : (L * Lᵀ).det = 0) : logpdfMat x m L = none := by
  rw [logpdfMat, solveLowerVec, if_neg, Option.map_none]
  rw [hl.diag_ne_zero_iff_gram]
  exact not_not.mpr hd

/-- Reindexing. -/
theorem gaussLogDensity_reindex (e : ι ≃ ν) (m : ν → ℝ) (S : Matrix ν ν ℝ) (y : ν → ℝ) :
    gaussLogDensity (m ∘ e) (S.submatrix e e) (y ∘ e) = gaussLogDensity m S y := by
  unfold gaussLogDensity
  rw [Matrix.det_submatrix_equiv_self, Fintype.card_congr e, Matrix.inv_submatrix_equiv]
  congr 3
  have : (y ∘ e - m ∘ e) = (y - m) ∘ e := rfl
  rw [this, Matrix.submatrix_mulVec_equiv, dotProduct, dotProduct]
  have h2 : ((y - m) ∘ e) ∘ e.symm = y - m := by
    funext i; simp
  rw [h2]
  exact Equiv.sum_comp e fun i => (y - m) i * (S⁻¹ *ᵥ (y - m)) i

theorem padded_inv (So : Matrix ι ι ℝ) (s : ℝ) (hs : s ≠ 0) (hdet : So.det ≠ 0) :
    (fromBlocks So 0 0 (s • (1 : Matrix κ κ ℝ)))⁻¹ = fromBlocks So⁻¹ 0 0 (s⁻¹ • (1 : Matrix κ κ ℝ)) := by
  apply Matrix.inv_eq_right_inv
  rw [fromBlocks_multiply]
  have hu : IsUnit So.det := isUnit_iff_ne_zero.mpr hdet
  simp [Matrix.mul_nonsing_inv _ hu, smul_smul, hs, fromBlocks_one]

/-- Padding dimensions with variance `1/(2π)` and zero residual do not change the log density. -/
theorem gaussLogDensity_padded (e : ι ⊕ κ ≃ ν) (S : Matrix ν ν ℝ) (So : Matrix ι ι ℝ)
    (hS : S.submatrix e e = fromBlocks So 0 0 ((1 / (2 * Real.pi)) • (1 : Matrix κ κ ℝ)))
    (m y : ν → ℝ) (mo yo : ι → ℝ) (h : ∀ i, (y - m) (e (.inl i)) = (yo - mo) i)
    (h0 : ∀ j, (y - m) (e (.inr j)) = 0) (hdet : So.det ≠ 0) :
    gaussLogDensity m S y = gaussLogDensity mo So yo := by
  rw [← gaussLogDensity_reindex e, hS]
  have hpi : (0 : ℝ) < 2 * Real.pi := by positivity
  have hs : (1 / (2 * Real.pi) : ℝ) ≠ 0 := by positivity
  unfold gaussLogDensity
  have hv : (y ∘ e - m ∘ e) = Sum.elim (yo - mo) 0 := by
    funext i
    cases i with
    | inl i => exact h i
    | inr j => exact h0 j
  rw [hv, padded_inv So _ hs hdet, fromBlocks_mulVec, det_fromBlocks_zero₂₁, Matrix.det_smul,
    Matrix.det_one, mul_one, Real.log_mul hdet (pow_ne_zero _ hs), Real.log_pow, Fintype.card_sum]
  have hq : Sum.elim (yo - mo) (0 : κ → ℝ) ⬝ᵥ
      Sum.elim (So⁻¹ *ᵥ (yo - mo) + (0 : Matrix ι κ ℝ) *ᵥ (0 : κ → ℝ))
        ((0 : Matrix κ ι ℝ) *ᵥ (yo - mo) + ((1 / (2 * Real.pi))⁻¹ • (1 : Matrix κ κ ℝ)) *ᵥ (0 : κ → ℝ)) =
      (yo - mo) ⬝ᵥ So⁻¹ *ᵥ (yo - mo) := by
    rw [dotProduct, Fintype.sum_sum_type]
    simp [dotProduct]
  have e1 : (Sum.elim (yo - mo) (0 : κ → ℝ) ∘ Sum.inl) = yo - mo := rfl
  have e2 : (Sum.elim (yo - mo) (0 : κ → ℝ) ∘ Sum.inr) = 0 := rfl
  rw [e1, e2, hq, one_div (2 * Real.pi), Real.log_inv]
  push_cast
  ring

/-- Observed components first, then the missing ones: the order produced by `collect_nans_chol`. -/
def obsEquiv (flag : Fin n → Bool) :
    {i // flag i = false} ⊕ {i // ¬ flag i = false} ≃ Fin n :=
  (Equiv.sumCompl fun i => flag i = false).trans (stableArgsort flag).symm

theorem stableArgsort_obsEquiv_inl (flag : Fin n → Bool) (i : {i // flag i = false}) :
    stableArgsort flag (obsEquiv flag (.inl i)) = i.1 := by
  simp [obsEquiv]

theorem stableArgsort_obsEquiv_inr (flag : Fin n → Bool) (i : {i // ¬ flag i = false}) :
    stableArgsort flag (obsEquiv flag (.inr i)) = i.1 := by
  simp [obsEquiv]

theorem flag_inr (flag : Fin n → Bool) (i : {i // ¬ flag i = false}) : flag i.1 = true := by
  have := i.2
  simpa using this

/-- A padded covariance in block form. -/
theorem padded_submatrix (flag : Fin n → Bool) (S' S : Matrix (Fin n) (Fin n) ℝ)
    (h : ∀ i j, S' i j = if flag (stableArgsort flag i) || flag (stableArgsort flag j) then
        (if i = j then 1 / (2 * Real.pi) else 0)
      else S (stableArgsort flag i) (stableArgsort flag j)) :
    S'.submatrix (obsEquiv flag) (obsEquiv flag) =
      fromBlocks (S.submatrix Subtype.val Subtype.val) 0 0
        ((1 / (2 * Real.pi)) • (1 : Matrix {i // ¬ flag i = false} {i // ¬ flag i = false} ℝ)) := by
  ext i j
  rw [Matrix.submatrix_apply, h]
  cases i with
  | inl i =>
    cases j with
    | inl j =>
      rw [stableArgsort_obsEquiv_inl, stableArgsort_obsEquiv_inl, i.2, j.2]
      rfl
    | inr j =>
      rw [stableArgsort_obsEquiv_inl, stableArgsort_obsEquiv_inr, flag_inr flag j]
      simp
  | inr i =>
    cases j with
    | inl j =>
      rw [stableArgsort_obsEquiv_inr, stableArgsort_obsEquiv_inl, flag_inr flag i]
      simp
    | inr j =>
      rw [stableArgsort_obsEquiv_inr, stableArgsort_obsEquiv_inr, flag_inr flag i]
      simp [Matrix.one_apply]

theorem collectRest_inl {α : Type*} [Zero α] (flag : Fin n → Bool) (v : Fin n → α)
    (i : {i // flag i = false}) : collectRest flag v (obsEquiv flag (.inl i)) = v i.1 := by
  rw [collectRest, stableArgsort_obsEquiv_inl, i.2]; rfl

theorem collectRest_inr {α : Type*} [Zero α] (flag : Fin n → Bool) (v : Fin n → α)
    (i : {i // ¬ flag i = false}) : collectRest flag v (obsEquiv flag (.inr i)) = 0 := by
  rw [collectRest, stableArgsort_obsEquiv_inr, flag_inr flag i]; rfl

/-- Collecting NaNs and evaluating the log density of the padded covariance gives the log density of the
observed components. -/
theorem gaussLogDensity_collect (flag : Fin n → Bool) (S' S : Matrix (Fin n) (Fin n) ℝ)
    (h : ∀ i j, S' i j = if flag (stableArgsort flag i) || flag (stableArgsort flag j) then
        (if i = j then 1 / (2 * Real.pi) else 0)
      else S (stableArgsort flag i) (stableArgsort flag j)) (m x : Fin n → ℝ)
    (hdet : (S.submatrix Subtype.val Subtype.val :
      Matrix {i // flag i = false} {i // flag i = false} ℝ).det ≠ 0) :
    gaussLogDensity (collectRest flag m) S' (collectRest flag x) =
      gaussLogDensity (fun i : {i // flag i = false} => m i.1)
        (S.submatrix Subtype.val Subtype.val) (fun i => x i.1) := by
  refine gaussLogDensity_padded (obsEquiv flag) S' _ (padded_submatrix flag S' S h) _ _ _ _ ?_ ?_ hdet
  · intro i
    rw [Pi.sub_apply, collectRest_inl, collectRest_inl]; rfl
  · intro j
    rw [Pi.sub_apply, collectRest_inr, collectRest_inr, sub_zero]

theorem padded_det_ne_zero (flag : Fin n → Bool) (S' S : Matrix (Fin n) (Fin n) ℝ)
    (h : ∀ i j, S' i j = if flag (stableArgsort flag i) || flag (stableArgsort flag j) then
        (if i = j then 1 / (2 * Real.pi) else 0)
      else S (stableArgsort flag i) (stableArgsort flag j)) :
    S'.det ≠ 0 ↔ (S.submatrix Subtype.val Subtype.val :
      Matrix {i // flag i = false} {i // flag i = false} ℝ).det ≠ 0 := by
  have hs : (1 / (2 * Real.pi) : ℝ) ≠ 0 := by positivity
  rw [← Matrix.det_submatrix_equiv_self (obsEquiv flag), padded_submatrix flag S' S h,
    det_fromBlocks_zero₂₁, Matrix.det_smul, Matrix.det_one, mul_one]
  constructor
  · intro h1 h2; rw [h2, zero_mul] at h1; exact h1 rfl
  · intro h1; exact mul_ne_zero h1 (pow_ne_zero _ hs)

end

end Cuthbert
