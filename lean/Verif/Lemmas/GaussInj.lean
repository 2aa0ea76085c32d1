import Verif.Lemmas.Bayes

/-!
# A weighted Gaussian law determines its weight, mean and covariance
-/

namespace Cuthbert
open MeasureTheory Matrix
open scoped ENNReal

noncomputable section

set_option linter.unusedSectionVars false

variable {ι κ κ' : Type*} [Fintype ι] [DecidableEq ι] [Fintype κ] [Fintype κ']

theorem gram_apply_comm (L : Matrix ι κ ℝ) (i j : ι) : (L * Lᵀ) i j = (L * Lᵀ) j i := by
  have : (L * Lᵀ)ᵀ = L * Lᵀ := by rw [Matrix.transpose_mul, Matrix.transpose_transpose]
  conv_lhs => rw [← this]
  rfl

theorem gauss_injective {m m' : ι → ℝ} {L : Matrix ι κ ℝ} {M : Matrix ι κ' ℝ}
    (h : gauss m L = gauss m' M) : m = m' ∧ L * Lᵀ = M * Mᵀ := by
  have hc := gram_eq_of_gauss_eq h
  have hq : ∀ a : ι → ℝ, a ⬝ᵥ (L * Lᵀ) *ᵥ a = a ⬝ᵥ (M * Mᵀ) *ᵥ a := by
    intro a
    have h1 := congrArg norm (hc a)
    rw [norm_mul, norm_mul, Complex.norm_exp_ofReal_mul_I, Complex.norm_exp_ofReal_mul_I, one_mul, one_mul,
      ← Complex.ofReal_exp, ← Complex.ofReal_exp, Complex.norm_real, Complex.norm_real, Real.norm_eq_abs,
      Real.norm_eq_abs, Real.abs_exp, Real.abs_exp, Real.exp_eq_exp] at h1
    linarith
  constructor
  · have he : ∀ a : ι → ℝ, Complex.exp (((a ⬝ᵥ m : ℝ) : ℂ) * Complex.I) =
        Complex.exp (((a ⬝ᵥ m' : ℝ) : ℂ) * Complex.I) := by
      intro a
      have h1 := hc a
      rw [hq a] at h1
      exact mul_right_cancel₀ (Complex.exp_ne_zero _) h1
    funext i
    by_contra hne
    have hd : m i - m' i ≠ 0 := sub_ne_zero.mpr hne
    have h1 := he (Pi.single i (Real.pi / (m i - m' i)))
    rw [single_dotProduct, single_dotProduct] at h1
    have h2 : Real.pi / (m i - m' i) * m i = Real.pi / (m i - m' i) * m' i + Real.pi := by
      field_simp; ring
    rw [h2, Complex.ofReal_add, add_mul, Complex.exp_add, Complex.exp_pi_mul_I] at h1
    have h3 := Complex.exp_ne_zero (((Real.pi / (m i - m' i) * m' i : ℝ) : ℂ) * Complex.I)
    have h4 : (2 : ℂ) * Complex.exp (((Real.pi / (m i - m' i) * m' i : ℝ) : ℂ) * Complex.I) = 0 := by
      linear_combination -h1
    exact h3 ((mul_eq_zero.mp h4).resolve_left two_ne_zero)
  · have hpol : ∀ (P : Matrix ι ι ℝ) (i j : ι),
        (Pi.single i 1 + Pi.single j 1 : ι → ℝ) ⬝ᵥ P *ᵥ (Pi.single i 1 + Pi.single j 1) =
          P i i + P i j + P j i + P j j := by
      intro P i j
      simp only [Matrix.mulVec_add, Matrix.mulVec_single_one, add_dotProduct, dotProduct_add,
        single_one_dotProduct, Matrix.col_apply]
      ring
    have hdiag : ∀ i, (L * Lᵀ) i i = (M * Mᵀ) i i := by
      intro i
      have := hq (Pi.single i 1)
      simpa [Matrix.mulVec_single_one, single_one_dotProduct] using this
    ext i j
    have h1 := hq (Pi.single i 1 + Pi.single j 1)
    rw [hpol, hpol, hdiag i, hdiag j, gram_apply_comm L j i, gram_apply_comm M j i] at h1
    linarith

/-- The same for weighted laws. -/
theorem weighted_gauss_injective {m m' : ι → ℝ} {L : Matrix ι κ ℝ} {M : Matrix ι κ' ℝ} {l l' : ℝ}
    (h : ∀ φ : (ι → ℝ) → ℝ≥0∞, Measurable φ → ENNReal.ofReal (Real.exp l) * ∫⁻ x, φ x ∂gauss m L =
      ENNReal.ofReal (Real.exp l') * ∫⁻ x, φ x ∂gauss m' M) :
    l = l' ∧ m = m' ∧ L * Lᵀ = M * Mᵀ := by
  have h1 := h (fun _ => 1) measurable_const
  rw [lintegral_one, lintegral_one, measure_univ, measure_univ, mul_one, mul_one,
    ENNReal.ofReal_eq_ofReal_iff (Real.exp_nonneg _) (Real.exp_nonneg _), Real.exp_eq_exp] at h1
  refine ⟨h1, gauss_injective (Measure.ext fun s hs => ?_)⟩
  have h2 := h (s.indicator 1) (measurable_one.indicator hs)
  rw [lintegral_indicator_one hs, lintegral_indicator_one hs, h1] at h2
  exact (ENNReal.mul_right_inj (by simp [Real.exp_pos]) ENNReal.ofReal_ne_top).mp h2

end

end Cuthbert
