import Verif.Lemmas.Gaussian
import Mathlib.Data.Matrix.ColumnRowPartitioned
import Verif.Lemmas.KalmanStep

/-!
# Gaussian disintegration and Bayes' rule
-/

namespace Cuthbert
open MeasureTheory ProbabilityTheory Matrix
open scoped ENNReal

noncomputable section

set_option linter.unusedSectionVars false

variable {ι ο κ κ' α β : Type*} [Fintype ι] [Fintype ο] [Fintype κ] [Fintype κ'] [Fintype α] [Fintype β]

theorem measurable_affine_prod (H : Matrix ο ι ℝ) (d : ο → ℝ) (B : Matrix ο κ ℝ) :
    Measurable fun p : (ι → ℝ) × (κ → ℝ) => H *ᵥ p.1 + d + B *ᵥ p.2 :=
  (((measurable_mulVec H).comp measurable_fst).add measurable_const).add
    ((measurable_mulVec B).comp measurable_snd)

/-- Integrals against a Gaussian kernel with affine mean are measurable. -/
theorem measurable_lintegral_kernel {Ω : Type*} [MeasurableSpace Ω] (mean : Ω → ο → ℝ)
    (hmean : Measurable mean) (B : Matrix ο κ ℝ) {f : Ω × (ο → ℝ) → ℝ≥0∞} (hf : Measurable f) :
    Measurable fun ω => ∫⁻ y, f (ω, y) ∂gauss (mean ω) B := by
  have h : ∀ ω, ∫⁻ y, f (ω, y) ∂gauss (mean ω) B =
      ∫⁻ η, f (ω, mean ω + B *ᵥ η) ∂stdNormal κ := by
    intro ω
    exact lintegral_gauss _ _ (hf.comp measurable_prodMk_left)
  simp_rw [h]
  have hm : Measurable fun p : Ω × (κ → ℝ) => f (p.1, mean p.1 + B *ᵥ p.2) :=
    hf.comp (measurable_fst.prodMk
      ((hmean.comp measurable_fst).add ((measurable_mulVec B).comp measurable_snd)))
  exact hm.lintegral_prod_right'

/-- Disintegration of a linear Gaussian pair in the other direction: `W` is a factor of the law of `y`, `K`
any gain with `K S = P Hᵀ` and `V` a factor of the remaining covariance. -/
theorem gauss_disint (m : ι → ℝ) (A : Matrix ι α ℝ) (H : Matrix ο ι ℝ) (d : ο → ℝ) (B : Matrix ο β ℝ)
    (W : Matrix ο κ ℝ) (Kg : Matrix ι ο ℝ) (V : Matrix ι κ' ℝ)
    (h1 : W * Wᵀ = H * (A * Aᵀ) * Hᵀ + B * Bᵀ) (h2 : Kg * (W * Wᵀ) = A * Aᵀ * Hᵀ)
    (h3 : Kg * (W * Wᵀ) * Kgᵀ + V * Vᵀ = A * Aᵀ)
    {f : (ο → ℝ) × (ι → ℝ) → ℝ≥0∞} (hf : Measurable f) :
    ∫⁻ x, ∫⁻ y, f (y, x) ∂gauss (H *ᵥ x + d) B ∂gauss m A =
      ∫⁻ y, ∫⁻ x, f (y, x) ∂gauss (m + Kg *ᵥ (y - (H *ᵥ m + d))) V ∂gauss (H *ᵥ m + d) W := by
  have hfs : Measurable fun p : (ι → ℝ) × (ο → ℝ) => f (p.2, p.1) := hf.comp measurable_swap
  have hmean1 : Measurable fun x : ι → ℝ => H *ᵥ x + d := (measurable_mulVec H).add measurable_const
  have hmean2 : Measurable fun y : ο → ℝ => m + Kg *ᵥ (y - (H *ᵥ m + d)) :=
    measurable_const.add ((measurable_mulVec Kg).comp (measurable_id.sub measurable_const))
  have g1 : Measurable fun x : ι → ℝ => ∫⁻ y, f (y, x) ∂gauss (H *ᵥ x + d) B :=
    measurable_lintegral_kernel _ hmean1 B hfs
  have g2 : Measurable fun y : ο → ℝ => ∫⁻ x, f (y, x) ∂gauss (m + Kg *ᵥ (y - (H *ᵥ m + d))) V :=
    measurable_lintegral_kernel _ hmean2 V hf
  rw [lintegral_gauss _ _ g1, lintegral_gauss _ _ g2]
  have e1 : ∀ ε : α → ℝ, ∫⁻ y, f (y, m + A *ᵥ ε) ∂gauss (H *ᵥ (m + A *ᵥ ε) + d) B =
      ∫⁻ η, f ((H *ᵥ m + d) + ((H * A) *ᵥ ε + B *ᵥ η), m + (A *ᵥ ε + (0 : Matrix ι β ℝ) *ᵥ η))
        ∂stdNormal β := by
    intro ε
    have hm : Measurable fun y : ο → ℝ => f (y, m + A *ᵥ ε) :=
      hf.comp (measurable_id.prodMk measurable_const)
    rw [lintegral_gauss _ _ hm]
    refine lintegral_congr fun η => ?_
    congr 2
    · rw [Matrix.mulVec_add, Matrix.mulVec_mulVec]; abel
    · simp
  have e2 : ∀ ε : κ → ℝ, ∫⁻ x, f ((H *ᵥ m + d) + W *ᵥ ε, x)
      ∂gauss (m + Kg *ᵥ ((H *ᵥ m + d) + W *ᵥ ε - (H *ᵥ m + d))) V =
      ∫⁻ η, f ((H *ᵥ m + d) + (W *ᵥ ε + (0 : Matrix ο κ' ℝ) *ᵥ η), m + ((Kg * W) *ᵥ ε + V *ᵥ η))
        ∂stdNormal κ' := by
    intro ε
    have hm : Measurable fun x : ι → ℝ => f ((H *ᵥ m + d) + W *ᵥ ε, x) :=
      hf.comp (measurable_const.prodMk measurable_id)
    rw [lintegral_gauss _ _ hm]
    refine lintegral_congr fun η => ?_
    congr 2
    · simp
    · rw [add_sub_cancel_left, Matrix.mulVec_mulVec]; abel
  simp_rw [e1, e2]
  refine lintegral_pair_eq (H *ᵥ m + d) m (H * A) B A 0 W 0 (Kg * W) V ?_ ?_ ?_ hf
  · rw [Matrix.transpose_zero, Matrix.mul_zero, add_zero, h1, Matrix.transpose_mul]
    simp only [Matrix.mul_assoc]
  · rw [Matrix.transpose_zero, Matrix.mul_zero, add_zero, Matrix.zero_mul, add_zero,
      Matrix.mul_assoc, h2, Matrix.transpose_mul]
    simp only [Matrix.mul_assoc]
  · rw [Matrix.transpose_zero, Matrix.mul_zero, add_zero, ← h3, Matrix.transpose_mul]
    simp only [Matrix.mul_assoc]

variable [DecidableEq ι] [DecidableEq ο]

/-- The gain equations for a nonsingular innovation covariance. -/
theorem gain_eqs {P : Matrix ι ι ℝ} (H : Matrix ο ι ℝ) {R : Matrix ο ο ℝ} (hP : IsGram P)
    (hR : IsGram R) (hd : (innovCov P H R).det ≠ 0) :
    (P * Hᵀ * (innovCov P H R)⁻¹) * innovCov P H R = P * Hᵀ ∧
    (P * Hᵀ * (innovCov P H R)⁻¹) * innovCov P H R * (P * Hᵀ * (innovCov P H R)⁻¹)ᵀ + condCov P H R
      = P := by
  have hu : IsUnit (innovCov P H R).det := isUnit_iff_ne_zero.mpr hd
  have hs := (innovCov_gram (H := H) hP hR).symm
  have h1 : (P * Hᵀ * (innovCov P H R)⁻¹) * innovCov P H R = P * Hᵀ := by
    rw [Matrix.mul_assoc, Matrix.nonsing_inv_mul _ hu, Matrix.mul_one]
  refine ⟨h1, ?_⟩
  rw [h1, condCov, Matrix.transpose_mul, Matrix.transpose_mul, Matrix.transpose_transpose,
    Matrix.transpose_nonsing_inv, hs, hP.symm]
  simp only [Matrix.mul_assoc]
  abel

/-- **Bayes' rule** for linear Gaussian observations, as an identity of joint laws: first `x`, then `y`
given `x` is the same as first `y` (with its density), then `x` from the conditioned Gaussian. -/
theorem gauss_bayes (m : ι → ℝ) (A : Matrix ι α ℝ) (H : Matrix ο ι ℝ) (d : ο → ℝ) (B : Matrix ο β ℝ)
    (V : Matrix ι κ' ℝ) (hd : (innovCov (A * Aᵀ) H (B * Bᵀ)).det ≠ 0)
    (hV : V * Vᵀ = condCov (A * Aᵀ) H (B * Bᵀ))
    {f : (ο → ℝ) × (ι → ℝ) → ℝ≥0∞} (hf : Measurable f) :
    ∫⁻ x, ∫⁻ y, f (y, x) ∂gauss (H *ᵥ x + d) B ∂gauss m A =
      ∫⁻ y, ENNReal.ofReal (Real.exp (gaussLogDensity (H *ᵥ m + d) (innovCov (A * Aᵀ) H (B * Bᵀ)) y)) *
        ∫⁻ x, f (y, x) ∂gauss (condMean m (A * Aᵀ) H d (B * Bᵀ) y) V := by
  have hP := isGram_of A
  have hR := isGram_of B
  obtain ⟨W, hW⟩ := (innovCov_gram (H := H) hP hR).exists_sqrt
  obtain ⟨g1, g2⟩ := gain_eqs H hP hR hd
  rw [← hW] at g1 g2
  have hWd : W.det ≠ 0 := by
    intro h0
    apply hd
    rw [← hW, Matrix.det_mul, h0, zero_mul]
  rw [gauss_disint m A H d B W _ V hW g1 (by rw [hV]; exact g2) hf]
  have hmean : ∀ y, m + (A * Aᵀ * Hᵀ * (W * Wᵀ)⁻¹) *ᵥ (y - (H *ᵥ m + d)) =
      condMean m (A * Aᵀ) H d (B * Bᵀ) y := by
    intro y
    rw [hW, condMean, Matrix.mulVec_mulVec, Matrix.mulVec_mulVec]
  simp_rw [hmean]
  rw [gauss_eq_withDensity _ W hWd, hW]
  have hmm : Measurable fun y => condMean m (A * Aᵀ) H d (B * Bᵀ) y := by
    have : (fun y => condMean m (A * Aᵀ) H d (B * Bᵀ) y) = fun y =>
        m + (A * Aᵀ * Hᵀ * (W * Wᵀ)⁻¹) *ᵥ (y - (H *ᵥ m + d)) := by
      funext y; exact (hmean y).symm
    rw [this]
    exact measurable_const.add ((measurable_mulVec _).comp (measurable_id.sub measurable_const))
  have hdens : Measurable fun y => ENNReal.ofReal
      (Real.exp (gaussLogDensity (H *ᵥ m + d) (innovCov (A * Aᵀ) H (B * Bᵀ)) y)) := by
    unfold gaussLogDensity
    simp only [dotProduct, Matrix.mulVec]
    fun_prop
  rw [lintegral_withDensity_eq_lintegral_mul _ hdens (measurable_lintegral_kernel _ hmm V hf)]
  rfl

/-- The predictive law. -/
theorem gauss_predict {W : Matrix ο κ ℝ} (m : ι → ℝ) (A : Matrix ι α ℝ) (F : Matrix ο ι ℝ) (c : ο → ℝ)
    (B : Matrix ο β ℝ) (hW : W * Wᵀ = F * (A * Aᵀ) * Fᵀ + B * Bᵀ)
    {f : (ο → ℝ) → ℝ≥0∞} (hf : Measurable f) :
    ∫⁻ x, ∫⁻ y, f y ∂gauss (F *ᵥ x + c) B ∂gauss m A = ∫⁻ y, f y ∂gauss (F *ᵥ m + c) W := by
  have hmean1 : Measurable fun x : ι → ℝ => F *ᵥ x + c := (measurable_mulVec F).add measurable_const
  have g1 : Measurable fun x : ι → ℝ => ∫⁻ y, f y ∂gauss (F *ᵥ x + c) B :=
    measurable_lintegral_kernel _ hmean1 B (f := fun p => f p.2) (hf.comp measurable_snd)
  have hsum : gauss (F *ᵥ m + c) W = gauss (F *ᵥ m + c) (Matrix.fromCols (F * A) B) := by
    apply gauss_eq_of_gram
    rw [hW, Matrix.transpose_fromCols, Matrix.fromCols_mul_fromRows, Matrix.transpose_mul]
    simp only [Matrix.mul_assoc]
  rw [hsum, lintegral_gauss _ _ g1, lintegral_gauss _ _ hf]
  have hm : Measurable fun ε : α ⊕ β → ℝ => f (F *ᵥ m + c + Matrix.fromCols (F * A) B *ᵥ ε) :=
    hf.comp (measurable_affine _ _)
  rw [lintegral_stdNormal_sum hm]
  refine lintegral_congr fun ε => ?_
  rw [lintegral_gauss _ _ hf]
  refine lintegral_congr fun η => ?_
  congr 1
  rw [Matrix.fromCols_mulVec]
  have : (Sum.elim ε η ∘ Sum.inl) = ε := rfl
  have : (Sum.elim ε η ∘ Sum.inr) = η := rfl
  simp only [Sum.elim_comp_inl, Sum.elim_comp_inr, Matrix.mulVec_add, ← Matrix.mulVec_mulVec]
  abel

theorem dot_symm (N : Matrix ι ι ℝ) (hN : Nᵀ = N) (a b : ι → ℝ) : a ⬝ᵥ N *ᵥ b = b ⬝ᵥ N *ᵥ a := by
  rw [Matrix.dotProduct_mulVec, ← Matrix.mulVec_transpose, hN, dotProduct_comm]

/-- Completing the square: `p(y | ε) p(ε) = p(y) p(ε | y)` for a standard normal `ε`. -/
theorem complete_square [DecidableEq α] (G : Matrix ο α ℝ) {R : Matrix ο ο ℝ} (hR : IsGram R)
    (hRd : R.det ≠ 0) (yh y : ο → ℝ) (ε : α → ℝ) :
    gaussLogDensity (yh + G *ᵥ ε) R y + gaussLogDensity 0 1 ε =
      gaussLogDensity yh (innovCov 1 G R) y +
        gaussLogDensity (condMean 0 1 G yh R y) (condCov 1 G R) ε := by
  have hS : innovCov 1 G R = G * Gᵀ + R := by rw [innovCov, Matrix.mul_one]
  have h1g : IsGram (1 : Matrix α α ℝ) := ⟨1, by simp⟩
  have hSg : IsGram (innovCov 1 G R) := innovCov_gram h1g hR
  have hSd : (innovCov 1 G R).det ≠ 0 := by
    rw [hS, add_comm]; exact hR.det_add_ne_zero hRd (isGram_of G)
  have hRu : IsUnit R.det := isUnit_iff_ne_zero.mpr hRd
  have hSu : IsUnit (innovCov 1 G R).det := isUnit_iff_ne_zero.mpr hSd
  have hRi : (R⁻¹)ᵀ = R⁻¹ := by rw [Matrix.transpose_nonsing_inv, hR.symm]
  have hSi : ((innovCov 1 G R)⁻¹)ᵀ = (innovCov 1 G R)⁻¹ := by
    rw [Matrix.transpose_nonsing_inv, hSg.symm]
  set S := innovCov 1 G R with hSdef
  set M : Matrix α α ℝ := 1 + Gᵀ * R⁻¹ * G with hM
  have hMG : M * Gᵀ = Gᵀ * R⁻¹ * S := by
    rw [hM, hS, Matrix.add_mul, Matrix.one_mul, Matrix.mul_add, Matrix.mul_assoc Gᵀ R⁻¹ R,
      Matrix.nonsing_inv_mul _ hRu, Matrix.mul_one, Matrix.mul_assoc (Gᵀ * R⁻¹) G Gᵀ, add_comm]
  have hc : condCov 1 G R = 1 - Gᵀ * S⁻¹ * G := by
    rw [condCov, Matrix.one_mul, Matrix.mul_one]
  have hMV : M * condCov 1 G R = 1 := by
    have e : M * (Gᵀ * S⁻¹ * G) = Gᵀ * R⁻¹ * G := by
      rw [Matrix.mul_assoc Gᵀ, ← Matrix.mul_assoc M, hMG, Matrix.mul_assoc, ← Matrix.mul_assoc S,
        Matrix.mul_nonsing_inv _ hSu, Matrix.one_mul]
    rw [hc, Matrix.mul_sub, Matrix.mul_one, e, hM]
    abel
  have hVi : (condCov 1 G R)⁻¹ = M := Matrix.inv_eq_left_inv hMV
  -- determinants
  have hdet : S.det = R.det * M.det := by
    have e1 : S = R * (1 + R⁻¹ * G * Gᵀ) := by
      rw [hS, Matrix.mul_add, Matrix.mul_one, Matrix.mul_assoc, Matrix.mul_nonsing_inv_cancel_left _ _ hRu]
      abel
    rw [e1, Matrix.det_mul, Matrix.det_one_add_mul_comm, hM, Matrix.mul_assoc]
  have hMd : M.det * (condCov 1 G R).det = 1 := by rw [← Matrix.det_mul, hMV, Matrix.det_one]
  have hM0 : M.det ≠ 0 := left_ne_zero_of_mul_eq_one hMd
  have hV0 : (condCov 1 G R).det ≠ 0 := right_ne_zero_of_mul_eq_one hMd
  have hlog : Real.log S.det = Real.log R.det - Real.log (condCov 1 G R).det := by
    have h2 := congrArg Real.log hMd
    rw [Real.log_mul hM0 hV0, Real.log_one] at h2
    rw [hdet, Real.log_mul hRd hM0]
    linarith
  -- quadratic forms
  have hmean : condMean 0 1 G yh R y = Gᵀ *ᵥ (S⁻¹ *ᵥ (y - yh)) := by
    rw [condMean, Matrix.mulVec_zero, zero_add, Matrix.one_mulVec, zero_add]
  obtain ⟨r, hr⟩ : ∃ r, r = y - yh := ⟨_, rfl⟩
  obtain ⟨u, hu⟩ : ∃ u, u = S⁻¹ *ᵥ r := ⟨_, rfl⟩
  rw [← hr, ← hu] at hmean
  have hru : r = S *ᵥ u := by
    rw [hu, Matrix.mulVec_mulVec, Matrix.mul_nonsing_inv _ hSu, Matrix.one_mulVec]
  have hMme : M *ᵥ (Gᵀ *ᵥ u) = Gᵀ *ᵥ (R⁻¹ *ᵥ r) := by
    rw [Matrix.mulVec_mulVec, hMG, hru, Matrix.mulVec_mulVec, Matrix.mulVec_mulVec, Matrix.mul_assoc]
  have hMt : Mᵀ = M := by
    rw [hM, Matrix.transpose_add, Matrix.transpose_one, transpose_conj hRi]
  have tr : ∀ (a : α → ℝ) (b : ο → ℝ), a ⬝ᵥ Gᵀ *ᵥ b = (G *ᵥ a) ⬝ᵥ b := by
    intro a b
    rw [Matrix.dotProduct_mulVec, ← Matrix.mulVec_transpose, Matrix.transpose_transpose]
  have q1 : y - (yh + G *ᵥ ε) = r - G *ᵥ ε := by rw [hr]; abel
  have q2 : (r - G *ᵥ ε) ⬝ᵥ R⁻¹ *ᵥ (r - G *ᵥ ε) = r ⬝ᵥ R⁻¹ *ᵥ r - 2 * ((G *ᵥ ε) ⬝ᵥ R⁻¹ *ᵥ r)
      + (G *ᵥ ε) ⬝ᵥ R⁻¹ *ᵥ (G *ᵥ ε) := by
    rw [Matrix.mulVec_sub, dotProduct_sub, sub_dotProduct, sub_dotProduct,
      dot_symm R⁻¹ hRi r (G *ᵥ ε)]
    ring
  have q3 : ε ⬝ᵥ M *ᵥ ε = ε ⬝ᵥ ε + (G *ᵥ ε) ⬝ᵥ R⁻¹ *ᵥ (G *ᵥ ε) := by
    rw [hM, Matrix.add_mulVec, Matrix.one_mulVec, dotProduct_add, ← Matrix.mulVec_mulVec,
      ← Matrix.mulVec_mulVec, tr]
  have q4 : (ε - Gᵀ *ᵥ u) ⬝ᵥ M *ᵥ (ε - Gᵀ *ᵥ u) = ε ⬝ᵥ M *ᵥ ε - 2 * ((G *ᵥ ε) ⬝ᵥ R⁻¹ *ᵥ r)
      + (Gᵀ *ᵥ u) ⬝ᵥ Gᵀ *ᵥ (R⁻¹ *ᵥ r) := by
    rw [Matrix.mulVec_sub, dotProduct_sub, sub_dotProduct, sub_dotProduct,
      dot_symm M hMt (Gᵀ *ᵥ u) ε, hMme, tr]
    ring
  have q5 : r ⬝ᵥ R⁻¹ *ᵥ r = r ⬝ᵥ u + (Gᵀ *ᵥ u) ⬝ᵥ Gᵀ *ᵥ (R⁻¹ *ᵥ r) := by
    have e : R⁻¹ *ᵥ r = u + R⁻¹ *ᵥ (G *ᵥ (Gᵀ *ᵥ u)) := by
      rw [hru, hS, Matrix.add_mulVec, Matrix.mulVec_add, Matrix.mulVec_mulVec (v := u) R⁻¹ R,
        Matrix.nonsing_inv_mul _ hRu, Matrix.one_mulVec, Matrix.mulVec_mulVec (v := u) G]
      abel
    conv_lhs => rw [e, dotProduct_add]
    rw [tr, dot_symm R⁻¹ hRi]
  have q6 : gaussLogDensity 0 1 ε = -(1 / 2) * (ε ⬝ᵥ ε) - Fintype.card α / 2 * Real.log (2 * Real.pi) := by
    simp [gaussLogDensity]
  rw [q6, hmean]
  simp only [gaussLogDensity]
  rw [hVi, q1, q2, q4, q3, hlog, ← hr, ← hu, q5]
  ring

/-- **Bayes' rule**, pointwise in the observation, for a nonsingular noise covariance:
`N(m, P)(dx) p(y | x) = p(y) N(condMean, condCov)(dx)`. -/
theorem gauss_bayes_pointwise [DecidableEq α] (m : ι → ℝ) (A : Matrix ι α ℝ) (H : Matrix ο ι ℝ)
    (d : ο → ℝ) {R : Matrix ο ο ℝ} (hR : IsGram R) (hRd : R.det ≠ 0)
    (V : Matrix ι κ' ℝ) (hV : V * Vᵀ = condCov (A * Aᵀ) H R) (y : ο → ℝ)
    {f : (ι → ℝ) → ℝ≥0∞} (hf : Measurable f) :
    ∫⁻ x, ENNReal.ofReal (Real.exp (gaussLogDensity (H *ᵥ x + d) R y)) * f x ∂gauss m A =
      ENNReal.ofReal (Real.exp (gaussLogDensity (H *ᵥ m + d) (innovCov (A * Aᵀ) H R) y)) *
        ∫⁻ x, f x ∂gauss (condMean m (A * Aᵀ) H d R y) V := by
  have h1g : IsGram (1 : Matrix α α ℝ) := ⟨1, by simp⟩
  have hS : innovCov (A * Aᵀ) H R = innovCov 1 (H * A) R := by
    simp only [innovCov, Matrix.mul_one, Matrix.transpose_mul, Matrix.mul_assoc]
  have hSd : (innovCov 1 (H * A) R).det ≠ 0 := by
    rw [innovCov, Matrix.mul_one, add_comm]; exact hR.det_add_ne_zero hRd (isGram_of _)
  obtain ⟨L, hL⟩ := (condCov_gram (H := H * A) h1g hR hSd).exists_sqrt
  have hLd : L.det ≠ 0 := by
    -- the inverse of the conditional covariance of the noise exists
    have hM : (1 + (H * A)ᵀ * R⁻¹ * (H * A)) * condCov 1 (H * A) R = 1 := by
      have hRu : IsUnit R.det := isUnit_iff_ne_zero.mpr hRd
      have hSu : IsUnit (innovCov 1 (H * A) R).det := isUnit_iff_ne_zero.mpr hSd
      have hMG : (1 + (H * A)ᵀ * R⁻¹ * (H * A)) * (H * A)ᵀ = (H * A)ᵀ * R⁻¹ * innovCov 1 (H * A) R := by
        rw [innovCov, Matrix.mul_one, Matrix.add_mul, Matrix.one_mul, Matrix.mul_add,
          Matrix.mul_assoc (H * A)ᵀ R⁻¹ R, Matrix.nonsing_inv_mul _ hRu, Matrix.mul_one,
          Matrix.mul_assoc ((H * A)ᵀ * R⁻¹) (H * A), add_comm]
      rw [condCov, Matrix.one_mul, Matrix.mul_one, Matrix.mul_sub, Matrix.mul_one,
        Matrix.mul_assoc (H * A)ᵀ (innovCov 1 (H * A) R)⁻¹, ← Matrix.mul_assoc _ (H * A)ᵀ _, hMG,
        Matrix.mul_assoc ((H * A)ᵀ * R⁻¹), Matrix.mul_nonsing_inv_cancel_left _ _ hSu]
      abel
    intro h0
    have := congrArg Matrix.det hM
    rw [Matrix.det_mul, ← hL, Matrix.det_mul L, h0, zero_mul, mul_zero, Matrix.det_one] at this
    exact zero_ne_one this
  -- the posterior of the noise, pushed through `m + A ε`
  have hpost : gauss (condMean m (A * Aᵀ) H d R y) V =
      (gauss (condMean 0 1 (H * A) (H *ᵥ m + d) R y) L).map fun ε => A *ᵥ ε + m := by
    rw [gauss_map_affine]
    have hmean : A *ᵥ condMean 0 1 (H * A) (H *ᵥ m + d) R y + m = condMean m (A * Aᵀ) H d R y := by
      rw [condMean, condMean, hS, Matrix.mulVec_zero, zero_add, Matrix.one_mulVec, zero_add, add_comm]
      congr 1
      rw [Matrix.transpose_mul]
      simp only [← Matrix.mulVec_mulVec]
    rw [hmean]
    apply gauss_eq_of_gram
    rw [hV, Matrix.transpose_mul, ← Matrix.mul_assoc, Matrix.mul_assoc A L, hL, condCov, condCov, hS,
      Matrix.one_mul, Matrix.mul_one, Matrix.mul_sub, Matrix.mul_one, Matrix.sub_mul,
      Matrix.transpose_mul]
    simp only [Matrix.mul_assoc]
  have hmaff : Measurable fun ε : α → ℝ => A *ᵥ ε + m := (measurable_mulVec A).add measurable_const
  have hdm : Measurable fun x : ι → ℝ => ENNReal.ofReal (Real.exp (gaussLogDensity (H *ᵥ x + d) R y)) := by
    unfold gaussLogDensity
    simp only [dotProduct, Matrix.mulVec]
    fun_prop
  have h01 : stdNormal α = gauss 0 (1 : Matrix α α ℝ) := by
    rw [gauss]
    have : (fun ε : α → ℝ => (0 : α → ℝ) + (1 : Matrix α α ℝ) *ᵥ ε) = id := by
      funext ε; simp
    rw [this, Measure.map_id]
  have hdens : ∀ (mm : α → ℝ) (C : Matrix α α ℝ), Measurable fun ε : α → ℝ =>
      ENNReal.ofReal (Real.exp (gaussLogDensity mm C ε)) := by
    intro mm C
    unfold gaussLogDensity
    simp only [dotProduct, Matrix.mulVec]
    fun_prop
  have hprod : Measurable fun x : ι → ℝ =>
      ENNReal.ofReal (Real.exp (gaussLogDensity (H *ᵥ x + d) R y)) * f x := hdm.mul hf
  rw [hpost, lintegral_map hf hmaff, lintegral_gauss _ _ hprod, h01,
    gauss_eq_withDensity _ (1 : Matrix α α ℝ) (by simp), gauss_eq_withDensity _ L hLd, hL]
  have hfA : Measurable fun ε : α → ℝ => f (A *ᵥ ε + m) := hf.comp hmaff
  have hint : Measurable fun ε : α → ℝ => ENNReal.ofReal
      (Real.exp (gaussLogDensity (H *ᵥ (m + A *ᵥ ε) + d) R y)) * f (m + A *ᵥ ε) :=
    hprod.comp (measurable_affine m A)
  rw [lintegral_withDensity_eq_lintegral_mul _ (hdens _ _) hint,
    lintegral_withDensity_eq_lintegral_mul _ (hdens _ _) hfA,
    ← lintegral_const_mul' _ _ ENNReal.ofReal_ne_top]
  refine lintegral_congr fun ε => ?_
  simp only [Pi.mul_apply, Matrix.transpose_one, Matrix.mul_one]
  have hc := complete_square (H * A) hR hRd (H *ᵥ m + d) y ε
  have hmm : H *ᵥ (m + A *ᵥ ε) + d = H *ᵥ m + d + (H * A) *ᵥ ε := by
    rw [Matrix.mulVec_add, Matrix.mulVec_mulVec]; abel
  have hma : m + A *ᵥ ε = A *ᵥ ε + m := add_comm _ _
  rw [hmm, hma, ← mul_assoc, ← mul_assoc, ← ENNReal.ofReal_mul (Real.exp_nonneg _),
    ← ENNReal.ofReal_mul (Real.exp_nonneg _), ← Real.exp_add, ← Real.exp_add, add_comm, hc, hS]

end

end Cuthbert
