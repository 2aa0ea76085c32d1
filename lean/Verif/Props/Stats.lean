import Verif.Lemmas.Stats

/-!
# Property C20: `multivariate_normal.logpdf`
-/

namespace Cuthbert
open Matrix MeasureTheory

noncomputable section

variable {n k : ℕ}

theorem allSome_some (x : Fin n → ℝ) : allSome (fun i => some (x i)) = some x := by
  simp [allSome]

/-- **C20** (matrix). For a lower-triangular factor with non-zero diagonal, of any signs, and without
NaNs, `logpdf(x, m, L, nan_support=False)` is the textbook log density with covariance `L Lᵀ`. -/
theorem logpdf_matrix (qr : QR) (x m : Fin n → ℝ) (L : Matrix (Fin n) (Fin n) ℝ)
    (hl : ∀ i j, i < j → L i j = 0) (hd : ∀ i, L i i ≠ 0) :
    logpdf qr false (fun i => some (x i)) m (.mat L) = .ok (some (gaussLogDensity m (L * Lᵀ) x)) := by
  have h : (L * Lᵀ).det ≠ 0 := (IsLower.diag_ne_zero_iff_gram hl).mp hd
  simp only [logpdf, Bool.false_eq_true, if_false, dite_true, allSome_some, Option.bind_some]
  rw [logpdfMat_eq x m L hl h]

/-- **C20** (density). Exponentiating it gives the Lebesgue density of the Gaussian law with mean `m`
and factor `L`. -/
theorem logpdf_is_density (qr : QR) (m : Fin n → ℝ) (L : Matrix (Fin n) (Fin n) ℝ)
    (hl : ∀ i j, i < j → L i j = 0) (hd : ∀ i, L i i ≠ 0) :
    ∃ ell : (Fin n → ℝ) → ℝ,
      (∀ x, logpdf qr false (fun i => some (x i)) m (.mat L) = .ok (some (ell x))) ∧
      (∀ x, pdf qr false (fun i => some (x i)) m (.mat L) = .ok (some (Real.exp (ell x)))) ∧
      gauss m L = volume.withDensity fun x => ENNReal.ofReal (Real.exp (ell x)) := by
  refine ⟨gaussLogDensity m (L * Lᵀ), fun x => logpdf_matrix qr x m L hl hd, fun x => ?_, ?_⟩
  · rw [pdf, logpdf_matrix qr x m L hl hd]; rfl
  · exact gauss_eq_withDensity m L ((IsLower.det_ne_zero_iff hl).mpr hd)

theorem logpdfDiag_eq (x m c : Fin n → ℝ) (hd : ∀ i, c i ≠ 0) :
    logpdfDiag x m c = some (gaussLogDensity m (Matrix.diagonal c * (Matrix.diagonal c)ᵀ) x) := by
  have hl : IsLower (Matrix.diagonal c) := fun i j hij => Matrix.diagonal_apply_ne c hij.ne
  have hdd : ∀ i, Matrix.diagonal c i i ≠ 0 := by simpa using hd
  have h : (Matrix.diagonal c * (Matrix.diagonal c)ᵀ).det ≠ 0 := hl.diag_ne_zero_iff_gram.mp hdd
  have h1 := logpdfMat_eq x m _ hl h
  rw [← h1, logpdfMat, solveLowerVec, if_pos hdd, lowerPart_eq hl, logpdfDiag, if_pos hd]
  have hinv : (Matrix.diagonal c)⁻¹ = Matrix.diagonal fun i => (c i)⁻¹ := by
    apply Matrix.inv_eq_right_inv
    rw [Matrix.diagonal_mul_diagonal, ← Matrix.diagonal_one]
    congr 1
    funext i
    exact mul_inv_cancel₀ (hd i)
  have hy : (Matrix.diagonal c)⁻¹ *ᵥ (x - m) = fun i => (x i - m i) / c i := by
    funext i
    rw [hinv, Matrix.mulVec_diagonal, Pi.sub_apply, div_eq_inv_mul]
  simp only [Option.map_some, hy, Matrix.diagonal_apply_eq]

/-- **C20** (diagonal). A vector of standard deviations, of any signs, means the diagonal factor. -/
theorem logpdf_diagonal (qr : QR) (x m c : Fin n → ℝ) (hd : ∀ i, c i ≠ 0) :
    logpdf (k := k) qr false (fun i => some (x i)) m (.diag c) =
      .ok (some (gaussLogDensity m (Matrix.diagonal c * (Matrix.diagonal c)ᵀ) x)) := by
  simp only [logpdf, Bool.false_eq_true, if_false, allSome_some, Option.bind_some]
  rw [logpdfDiag_eq x m c hd]

/-- **C20** (scalar factor). A positive scalar `c` means the factor `c I`. -/
theorem logpdf_isotropic (qr : QR) (x m : Fin n → ℝ) (c : ℝ) (hc : 0 < c) :
    logpdf (k := k) qr false (fun i => some (x i)) m (.scalar c) =
      .ok (some (gaussLogDensity m ((c ^ 2) • (1 : Matrix (Fin n) (Fin n) ℝ)) x)) := by
  simp only [logpdf, Bool.false_eq_true, if_false, allSome_some, Option.bind_some]
  rw [logpdfIso, if_pos hc]
  have h2 : (c ^ 2) ≠ 0 := pow_ne_zero _ hc.ne'
  have hinv : ((c ^ 2) • (1 : Matrix (Fin n) (Fin n) ℝ))⁻¹ = (c ^ 2)⁻¹ • 1 := by
    apply Matrix.inv_eq_right_inv
    rw [Matrix.smul_mul, Matrix.one_mul, smul_smul, mul_inv_cancel₀ h2, one_smul]
  rw [gaussLogDensity, hinv, Matrix.smul_mulVec, Matrix.one_mulVec, dotProduct_smul, Matrix.det_smul,
    Matrix.det_one, mul_one, Real.log_pow, Real.log_pow, Fintype.card_fin, smul_eq_mul]
  simp only [Except.ok.injEq, Option.some.injEq]
  push_cast
  field_simp
  ring

/-- **C20** (scalars). For scalars and a positive scalar factor the result is the log density of the
one-dimensional law. -/
theorem logpdf_scalar (nanSupport : Bool) (x m c : ℝ) (hc : 0 < c) :
    logpdfScalar nanSupport (some x) m c = some (gaussLogDensity (ι := Unit) (fun _ => m)
      (Matrix.of fun _ _ => c ^ 2) (fun _ => x)) := by
  have h2 : (c ^ 2) ≠ 0 := pow_ne_zero _ hc.ne'
  simp only [logpdfScalar, logpdfScalarCore, if_pos hc, gaussLogDensity]
  have hinv : (Matrix.of fun _ _ : Unit => c ^ 2)⁻¹ = Matrix.of fun _ _ => (c ^ 2)⁻¹ := by
    apply Matrix.inv_eq_right_inv
    ext i j
    simp [Matrix.mul_apply, h2]
  rw [hinv]
  simp only [Option.some.injEq, dotProduct, Matrix.mulVec, Finset.univ_unique, Finset.sum_singleton,
    Matrix.of_apply, Pi.sub_apply, Matrix.det_unique, Real.log_pow, Fintype.card_unit]
  push_cast
  field_simp
  ring

/-- **C20** (missing coordinates, matrix factor). With `nan_support` and any square factor, `logpdf` is
the log density of the non-NaN coordinates under their marginal law. -/
theorem logpdf_missing (qr : QR) (x : Fin n → Option ℝ) (m : Fin n → ℝ)
    (L : Matrix (Fin n) (Fin n) ℝ)
    (hd : ((L * Lᵀ).submatrix Subtype.val Subtype.val :
      Matrix {i // isNan x i = false} {i // isNan x i = false} ℝ).det ≠ 0) :
    logpdf qr true x m (.mat L) = .ok (some (gaussLogDensity
      (fun i : {i // isNan x i = false} => m i.1)
      ((L * Lᵀ).submatrix Subtype.val Subtype.val) (fun i => (x i.1).getD 0))) := by
  obtain ⟨hlow, hcov⟩ := collect_nans_cov qr (isNan x) L
  have hdet := (padded_det_ne_zero (isNan x) _ (L * Lᵀ) hcov).mpr hd
  simp only [logpdf, if_true, dite_true]
  rw [logpdfMat_eq _ _ _ hlow hdet, gaussLogDensity_collect (isNan x) _ (L * Lᵀ) hcov m _ hd]

/-- **C20** (missing coordinates, diagonal factor). -/
theorem logpdf_missing_diagonal (qr : QR) (x : Fin n → Option ℝ) (m c : Fin n → ℝ)
    (hd : ∀ i, isNan x i = false → c i ≠ 0) :
    logpdf (k := k) qr true x m (.diag c) = .ok (some (gaussLogDensity
      (fun i : {i // isNan x i = false} => m i.1)
      (Matrix.diagonal fun i => c i.1 ^ 2) (fun i => (x i.1).getD 0))) := by
  have hne : ∀ i, collectDiag (isNan x) c i ≠ 0 := by
    intro i
    unfold collectDiag
    split_ifs with h
    · exact missingScale_pos.ne'
    · exact hd _ (by simpa using h)
  simp only [logpdf, if_true]
  rw [logpdfDiag_eq _ _ _ hne]
  have hcov : ∀ i j, (Matrix.diagonal (collectDiag (isNan x) c) *
      (Matrix.diagonal (collectDiag (isNan x) c))ᵀ) i j =
      if isNan x (stableArgsort (isNan x) i) || isNan x (stableArgsort (isNan x) j) then
        (if i = j then 1 / (2 * Real.pi) else 0)
      else (Matrix.diagonal fun i => c i ^ 2) (stableArgsort (isNan x) i)
        (stableArgsort (isNan x) j) := by
    intro i j
    rw [Matrix.diagonal_transpose, Matrix.diagonal_mul_diagonal, Matrix.diagonal_apply,
      Matrix.diagonal_apply]
    by_cases hij : i = j
    · subst hij
      rcases Bool.eq_false_or_eq_true (isNan x (stableArgsort (isNan x) i)) with h | h
      · simp only [collectDiag, h, if_true, Bool.or_self]
        exact missingScale_sq
      · simp only [collectDiag, h, Bool.or_self, Bool.false_eq_true, if_false, if_true]
        ring
    · have : stableArgsort (isNan x) i ≠ stableArgsort (isNan x) j :=
        fun h => hij ((stableArgsort (isNan x)).injective h)
      simp [hij, this]
  have hsub : ((Matrix.diagonal fun i => c i ^ 2).submatrix Subtype.val Subtype.val :
      Matrix {i // isNan x i = false} {i // isNan x i = false} ℝ) =
        Matrix.diagonal fun i => c i.1 ^ 2 := by
    ext i j
    rw [Matrix.submatrix_apply, Matrix.diagonal_apply, Matrix.diagonal_apply]
    by_cases h : i = j
    · subst h; simp
    · rw [if_neg h, if_neg fun h' => h (Subtype.ext h')]
  rw [gaussLogDensity_collect (isNan x) _ _ hcov m _ (by
    rw [hsub, Matrix.det_diagonal, Finset.prod_ne_zero_iff]
    exact fun i _ => pow_ne_zero _ (hd i.1 i.2)), hsub]

/-- **C20** (all coordinates missing). The result is 0. -/
theorem logpdf_all_missing (qr : QR) (m : Fin n → ℝ) (L : Matrix (Fin n) (Fin n) ℝ) :
    logpdf qr true (fun _ => none) m (.mat L) = .ok (some 0) := by
  have he : IsEmpty {i : Fin n // isNan (fun _ => none) i = false} := ⟨fun i => by
    have := i.2; simp [isNan] at this⟩
  rw [logpdf_missing qr _ m L (by rw [Matrix.det_isEmpty]; exact one_ne_zero)]
  simp [gaussLogDensity]

/-- **C20** (NaN without `nan_support`). If any coordinate is NaN and `nan_support` is off, the result
is NaN whatever the form of the factor; the remaining coordinates are not used. -/
theorem logpdf_nan_without_support (qr : QR) (x : Fin n → Option ℝ) (m : Fin n → ℝ)
    (i : Fin n) (hi : x i = none) (chol : LogpdfChol n n) :
    logpdf qr false x m chol = .ok none ∧ pdf qr false x m chol = .ok none := by
  have h : allSome x = none := by
    rw [allSome, if_neg fun h => by simpa [hi] using h i]
  cases chol <;> simp [pdf, logpdf, h, Except.map]

example (qr : QR) : logpdf qr false (fun i : Fin 2 => if i = 0 then none else some 3) (fun _ => 0)
    (.mat (1 : Matrix (Fin 2) (Fin 2) ℝ)) = .ok none :=
  (logpdf_nan_without_support qr _ _ 0 rfl _).1

/-- **C20** (shape mismatch). Without `nan_support`, a matrix of the wrong size raises `ValueError`;
with it, so does one where neither size is one. -/
theorem logpdf_shape_mismatch (qr : QR) (x : Fin n → Option ℝ) (m : Fin n → ℝ)
    (L : Matrix (Fin k) (Fin k) ℝ) (h : k ≠ n) :
    logpdf qr false x m (.mat L) = .error .valueError ∧
      (n ≠ 1 → k ≠ 1 → logpdf qr true x m (.mat L) = .error .valueError) := by
  constructor
  · simp [logpdf, h]
  · intro h1 h2
    simp [logpdf, h, h1, h2]

/-- **C20** (finding). With the default `nan_support=True` a shape mismatch need not raise: a
one-dimensional `x` with a 2 x 2 factor is accepted and evaluated with the first row of the factor. -/
theorem logpdf_shape_mismatch_accepted (qr : QR) :
    ∃ v : ℝ, logpdf qr true (fun _ : Fin 1 => some 0) (fun _ => 0)
      (.mat (1 : Matrix (Fin 2) (Fin 2) ℝ)) = .ok (some v) := by
  have hrow : ∀ T : Matrix (Fin 1) (Fin 1) ℝ, (Matrix.of fun i j => if i = j then
      (if isNan (fun _ : Fin 1 => some (0 : ℝ)) i then missingScale else T i i) else T i j) = T := by
    intro T
    ext i j
    have : i = j := Subsingleton.elim i j
    subst this
    simp [isNan]
  have hg := triaSq_gram qr (Matrix.of fun (i : Fin 1) (j : Fin 2) =>
    if isNan (fun _ : Fin 1 => some (0 : ℝ)) i then 0 else
      (1 : Matrix (Fin 2) (Fin 2) ℝ) 0 j) (by decide)
  simp only [logpdf, if_true]
  rw [dif_neg (by decide), dif_pos (by decide)]
  rw [hrow, logpdfMat_eq _ _ _ (fun i j hij => absurd hij (by
    rw [Subsingleton.elim i j]; exact lt_irrefl j)) (by
      refine ne_of_eq_of_ne (b := (1 : ℝ)) ?_ one_ne_zero
      refine (congrArg Matrix.det hg).trans ?_
      rw [Matrix.det_fin_one, Matrix.mul_apply]
      simp [isNan, Matrix.one_apply])]
  exact ⟨_, rfl⟩

/-- **C20** (finding). A scalar NaN is not marginalised out: `logpdf` of scalars returns a non-finite
value even with `nan_support`. So does a negative scalar factor, although the diagonal and matrix
branches accept any sign. -/
theorem logpdf_scalar_not_finite (nanSupport : Bool) (x : Option ℝ) (m c : ℝ)
    (h : x = none ∨ c ≤ 0) : logpdfScalar nanSupport x m c = none := by
  rcases h with rfl | h
  · cases nanSupport <;> simp [logpdfScalar, logpdfScalarCore]
  · cases x with
    | none => cases nanSupport <;> simp [logpdfScalar, logpdfScalarCore]
    | some x => simp [logpdfScalar, logpdfScalarCore, not_lt.mpr h]

/-- Non-vacuity for C20: a factor with a negative diagonal entry and a missing coordinate. -/
example : ∃ L : Matrix (Fin 2) (Fin 2) ℝ, (∀ i j, i < j → L i j = 0) ∧ (∀ i, L i i ≠ 0) ∧ L 0 0 < 0 ∧
    L 1 0 ≠ 0 := by
  refine ⟨!![-1, 0; 2, 3], ?_, ?_, ?_, ?_⟩
  · intro i j hij
    fin_cases i <;> fin_cases j <;> simp at hij ⊢
  · intro i; fin_cases i <;> simp
  · simp
  · simp

end

end Cuthbert
