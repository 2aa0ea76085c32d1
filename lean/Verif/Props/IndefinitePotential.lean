import Verif.Props.SingularPotential

/-!
# Taylor updates by potentials that are not log-concave (C99)
-/

namespace Cuthbert.Linearize
open MeasureTheory ProbabilityTheory Matrix Cuthbert Cuthbert.Spec Kalman
open scoped ENNReal

noncomputable section

variable {nx ny n : ℕ} {Inp K : Type*}

/-- The quadratic function `c + g·z + ½ z·A z`. -/
def quadratic (A : Matrix (Fin n) (Fin n) ℝ) (g : Fin n → ℝ) (c : ℝ) (z : Fin n → ℝ) : ℝ :=
  c + g ⬝ᵥ z + 1 / 2 * (z ⬝ᵥ A *ᵥ z)

/-! ## The exact law -/

theorem complete_quadratic (P A : Matrix (Fin n) (Fin n) ℝ) (hP : P.IsSymm) (hA : A.IsSymm)
    (m g m' : Fin n → ℝ) (c : ℝ) (P' : Matrix (Fin n) (Fin n) ℝ) (hP' : P'⁻¹ = P⁻¹ - A)
    (hm : (P⁻¹ - A) *ᵥ m' = P⁻¹ *ᵥ m + g) : ∃ κ, ∀ z,
      quadratic A g c z + gaussLogDensity m P z = κ + gaussLogDensity m' P' z := by
  have hPi : (P⁻¹)ᵀ = P⁻¹ := by rw [Matrix.transpose_nonsing_inv, hP]
  have hN : (P⁻¹ - A)ᵀ = P⁻¹ - A := by rw [Matrix.transpose_sub, hPi, hA]
  refine ⟨c + 1 / 2 * (m' ⬝ᵥ (P⁻¹ - A) *ᵥ m') - 1 / 2 * (m ⬝ᵥ P⁻¹ *ᵥ m) - 1 / 2 * Real.log P.det
    + 1 / 2 * Real.log P'.det, fun z => ?_⟩
  rw [quadratic, gaussLogDensity, gaussLogDensity, hP']
  have e1 : (z - m) ⬝ᵥ P⁻¹ *ᵥ (z - m) = z ⬝ᵥ P⁻¹ *ᵥ z - 2 * (z ⬝ᵥ P⁻¹ *ᵥ m) + m ⬝ᵥ P⁻¹ *ᵥ m := by
    rw [Matrix.mulVec_sub, sub_dotProduct, dotProduct_sub, dotProduct_sub, dot_symm _ hPi m z]; ring
  have e2 : (z - m') ⬝ᵥ (P⁻¹ - A) *ᵥ (z - m') =
      z ⬝ᵥ (P⁻¹ - A) *ᵥ z - 2 * (z ⬝ᵥ (P⁻¹ - A) *ᵥ m') + m' ⬝ᵥ (P⁻¹ - A) *ᵥ m' := by
    rw [Matrix.mulVec_sub, sub_dotProduct, dotProduct_sub, dotProduct_sub, dot_symm _ hN m' z]; ring
  have e3 : z ⬝ᵥ (P⁻¹ - A) *ᵥ m' = z ⬝ᵥ P⁻¹ *ᵥ m + g ⬝ᵥ z := by rw [hm, dotProduct_add, dotProduct_comm g]
  have e4 : z ⬝ᵥ (P⁻¹ - A) *ᵥ z = z ⬝ᵥ P⁻¹ *ᵥ z - z ⬝ᵥ A *ᵥ z := by rw [Matrix.sub_mulVec, dotProduct_sub]
  rw [e1, e2, e3, e4]
  ring

/-- **C99** (specification). Weighting the law `N(m, W Wᵀ)` by the exponential of a quadratic function with Hessian `A`
gives, up to the normalising constant, the Gaussian law with precision `(W Wᵀ)⁻¹ - A`, if this is positive definite. -/
theorem tilt_quadratic (m : Fin n → ℝ) (W A : Matrix (Fin n) (Fin n) ℝ) (hW : (W * Wᵀ).det ≠ 0) (hA : A.IsSymm)
    (g : Fin n → ℝ) (c : ℝ) (hpd : ((W * Wᵀ)⁻¹ - A).PosDef) :
    ∃ (Z : ℝ≥0∞) (m' : Fin n → ℝ) (W' : Matrix (Fin n) (Fin n) ℝ), Z ≠ 0 ∧ Z ≠ ∞ ∧
      (gauss m W).withDensity (fun z => ENNReal.ofReal (Real.exp (quadratic A g c z))) = Z • gauss m' W' ∧
      ((W * Wᵀ)⁻¹ - A) * (W' * W'ᵀ) = 1 ∧ ((W * Wᵀ)⁻¹ - A) *ᵥ m' = (W * Wᵀ)⁻¹ *ᵥ m + g := by
  have hdet : ((W * Wᵀ)⁻¹ - A).det ≠ 0 := hpd.det_pos.ne'
  obtain ⟨W', hW'⟩ := isGram_iff.mpr hpd.inv.posSemidef
  have hWd : W.det ≠ 0 := by
    rw [Matrix.det_mul] at hW; exact left_ne_zero_of_mul hW
  have h1 : ((W * Wᵀ)⁻¹ - A) * (W' * W'ᵀ) = 1 := by rw [← hW', Matrix.mul_nonsing_inv _ hdet.isUnit]
  have hWd' : W'.det ≠ 0 := by
    intro h0
    have := congrArg Matrix.det h1
    rw [Matrix.det_mul, Matrix.det_mul, h0, Matrix.det_one] at this
    simp at this
  obtain ⟨m', hm'⟩ : ∃ m', m' = ((W * Wᵀ)⁻¹ - A)⁻¹ *ᵥ ((W * Wᵀ)⁻¹ *ᵥ m + g) := ⟨_, rfl⟩
  have h2 : ((W * Wᵀ)⁻¹ - A) *ᵥ m' = (W * Wᵀ)⁻¹ *ᵥ m + g := by
    rw [hm', Matrix.mulVec_mulVec, Matrix.mul_nonsing_inv _ hdet.isUnit, Matrix.one_mulVec]
  obtain ⟨κ, hκ⟩ := complete_quadratic (W * Wᵀ) A (by rw [Matrix.IsSymm, Matrix.transpose_mul, Matrix.transpose_transpose])
    hA m g m' c (W' * W'ᵀ) (Matrix.inv_eq_left_inv h1) h2
  refine ⟨ENNReal.ofReal (Real.exp κ), m', W', (ENNReal.ofReal_pos.mpr (Real.exp_pos _)).ne', ENNReal.ofReal_ne_top,
    ?_, h1, h2⟩
  have hmeas : ∀ (m : Fin n → ℝ) (P : Matrix (Fin n) (Fin n) ℝ),
      Measurable fun y => ENNReal.ofReal (Real.exp (gaussLogDensity m P y)) := fun m P => by
    unfold gaussLogDensity
    simp only [dotProduct, Matrix.mulVec]
    fun_prop
  have hmq : Measurable fun z => ENNReal.ofReal (Real.exp (quadratic A g c z)) := by
    unfold quadratic
    simp only [dotProduct, Matrix.mulVec]
    fun_prop
  rw [gauss_eq_withDensity m W hWd, gauss_eq_withDensity m' W' hWd', ← withDensity_smul _ (hmeas _ _),
    ← withDensity_mul _ (hmeas _ _) hmq]
  congr 1
  funext z
  simp only [Pi.mul_apply, Pi.smul_apply, smul_eq_mul]
  rw [← ENNReal.ofReal_mul (Real.exp_pos _).le, ← ENNReal.ofReal_mul (Real.exp_pos _).le, ← Real.exp_add, ← Real.exp_add,
    add_comm, hκ]

/-! ## What the filter does -/

theorem isAbs_neg {A : Matrix (Fin n) (Fin n) ℝ} (hA : A.PosSemidef) : IsAbs (-A) A := by
  intro v μ hv
  by_cases h0 : v = 0
  · rw [h0, Matrix.mulVec_zero, smul_zero]
  · have h1 : A *ᵥ v = (-μ) • v := by
      rw [Matrix.neg_mulVec] at hv
      rw [← neg_neg (A *ᵥ v), hv, neg_smul]
    have h2 : 0 ≤ v ⬝ᵥ A *ᵥ v := by
      have := hA.dotProduct_mulVec_nonneg v
      simpa using this
    rw [h1, dotProduct_smul, smul_eq_mul] at h2
    have h3 := dotProduct_self_pos h0
    have h4 : μ ≤ 0 := by
      by_contra h
      push Not at h
      nlinarith
    rw [h1, abs_of_nonpos h4]

theorem _root_.Cuthbert.WellConditioned.semi {rtol : ℝ} {A : Matrix (Fin n) (Fin n) ℝ} (h : WellConditioned rtol A) :
    SemiConditioned rtol A := by
  obtain ⟨hs, lo, hi, hlo, hc, hb⟩ := h
  by_cases hn : n = 0
  · subst hn
    exact ⟨hs, 1, one_pos, fun v μ hv => absurd (Subsingleton.elim v 0) hv⟩
  · have hlh : lo ≤ hi := by
      have h1 := hb fun _ => 1
      have h2 : 0 < (fun _ : Fin n => (1 : ℝ)) ⬝ᵥ fun _ => 1 := by
        refine dotProduct_self_pos fun h => ?_
        have := congrFun h ⟨0, Nat.pos_of_ne_zero hn⟩
        simp at this
      exact le_of_mul_le_mul_right (h1.1.trans h1.2) h2
    refine ⟨hs, hi, hlo.trans_le hlh, fun v μ hv hμ => Or.inr ?_⟩
    have h1 := hb v
    have h2 := dotProduct_self_pos hv
    rw [hμ, dotProduct_smul, smul_eq_mul] at h1
    exact ⟨hc.trans_le (le_of_mul_le_mul_right h1.1 h2), le_of_mul_le_mul_right h1.2 h2⟩

theorem _root_.Cuthbert.WellConditioned.posDef {rtol : ℝ} {A : Matrix (Fin n) (Fin n) ℝ} (h : WellConditioned rtol A) :
    A.PosDef := by
  obtain ⟨hs, lo, hi, hlo, hc, hb⟩ := h
  refine Matrix.PosDef.of_dotProduct_mulVec_pos ?_ fun v hv => ?_
  · rwa [Matrix.IsHermitian, Matrix.conjTranspose_eq_transpose_of_trivial]
  · have := (mul_pos hlo (dotProduct_self_pos hv)).trans_le (hb v).1
    simpa using this

theorem inv_gap {P A : Matrix (Fin n) (Fin n) ℝ} (hP : P.PosDef) (hA : A.PosDef) {P' : Matrix (Fin n) (Fin n) ℝ}
    (h : (P⁻¹ + A) * P' = 1) : (P - P').PosDef := by
  have hd : (P⁻¹ + A).det ≠ 0 := (hP.inv.add hA).det_pos.ne'
  have hA' : IsUnit A.det := hA.det_pos.ne'.isUnit
  have hPu : IsUnit P.det := hP.det_pos.ne'.isUnit
  have hS := hP.add hA.inv
  have hSu : IsUnit (P + A⁻¹).det := hS.det_pos.ne'.isUnit
  -- Woodbury
  have hw : P - P' = P * (P + A⁻¹)⁻¹ * P := by
    have h1 : P' = (P⁻¹ + A)⁻¹ := (Matrix.inv_eq_right_inv h).symm
    have h2 : (P⁻¹ + A) * (P - P * (P + A⁻¹)⁻¹ * P) = 1 := by
      have e1 : (P⁻¹ + A) * P = A * (P + A⁻¹) := by
        rw [Matrix.add_mul, Matrix.mul_add, Matrix.nonsing_inv_mul _ hPu, Matrix.mul_nonsing_inv _ hA', add_comm]
      rw [Matrix.mul_sub, ← Matrix.mul_assoc, ← Matrix.mul_assoc, e1, Matrix.mul_assoc A, Matrix.mul_nonsing_inv _ hSu,
        Matrix.mul_one, Matrix.mul_add, Matrix.mul_nonsing_inv _ hA']
      abel
    rw [h1, Matrix.inv_eq_right_inv h2]
    abel
  rw [hw]
  have hPs : Pᴴ = P := hP.isHermitian
  have := hS.inv.mul_mul_conjTranspose_same (B := P) (by
    have := Matrix.vecMul_injective_of_isUnit ((Matrix.isUnit_iff_isUnit_det P).mpr hPu)
    exact this)
  rwa [hPs] at this

theorem quadratic_quadForm (A : Matrix (Fin n) (Fin n) ℝ) (hA : A.IsSymm) (hd : A.det ≠ 0) (g : Fin n → ℝ) (a : ℝ) :
    ∃ (μ : Fin n → ℝ) (c' : ℝ), quadratic A g a = quadForm (0 : Matrix (Fin n) (Fin 0) ℝ) μ (-A) c' 0 ∧
      A *ᵥ μ = -g ∧ ContDiff ℝ 2 (quadratic A g a) := by
  have hAu : IsUnit A.det := hd.isUnit
  have hfun : quadratic A g a =
      quadForm (0 : Matrix (Fin n) (Fin 0) ℝ) (-(A⁻¹ *ᵥ g)) (-A) (a - 1 / 2 * (g ⬝ᵥ A⁻¹ *ᵥ g)) 0 := by
    funext z
    rw [quadratic, quadForm, Matrix.zero_mulVec, zero_add, sub_neg_eq_add, Matrix.neg_mulVec, dotProduct_neg,
      Matrix.mulVec_add, Matrix.mulVec_mulVec, Matrix.mul_nonsing_inv _ hAu, Matrix.one_mulVec, add_dotProduct,
      dotProduct_add, dotProduct_add, dot_symm A hA (A⁻¹ *ᵥ g) z, Matrix.mulVec_mulVec, Matrix.mul_nonsing_inv _ hAu,
      Matrix.one_mulVec, dotProduct_comm (A⁻¹ *ᵥ g), dotProduct_comm z g]
    ring
  refine ⟨_, _, hfun, ?_, ?_⟩
  · rw [Matrix.mulVec_neg, Matrix.mulVec_mulVec, Matrix.mul_nonsing_inv _ hAu, Matrix.one_mulVec]
  · rw [hfun]
    have := contDiff_quadForm (0 : Matrix (Fin n) (Fin 0) ℝ) (-(A⁻¹ *ᵥ g)) (-A) (a - 1 / 2 * (g ⬝ᵥ A⁻¹ *ᵥ g))
    exact this.comp ((contDiff_const (c := (0 : Fin 0 → ℝ))).prodMk contDiff_id)

theorem posDef_regular {A : Matrix (Fin n) (Fin n) ℝ} (hA : A.PosDef) :
    (∀ v : Fin n → ℝ, A *ᵥ v = 0 → v = 0) ∧ ∀ i, ¬ ZeroDim A i := by
  have hker : ∀ v : Fin n → ℝ, A *ᵥ v = 0 → v = 0 := fun v hv => by
    by_contra h
    have := hA.dotProduct_mulVec_pos h
    rw [hv] at this
    simp at this
  refine ⟨hker, fun i hi => ?_⟩
  have := hker (Pi.single i 1) (by
    funext r
    rw [Matrix.mulVec_single_one]
    exact hi.1 r)
  have := congrFun this i
  simp at this

/-- **C99** (where the update is right; the full claim has no hypothesis on the sign of `A`). If the log potential is
quadratic and strictly concave, with a well-conditioned Hessian, then the law returned is the predictive law multiplied
by the potential and normalised, wherever the potential is linearised. -/
theorem taylor_quadratic_exact_partial (qr : QR) (svd : SVD) (D : Dummies nx) (cb : TCallbacks nx ny Inp)
    (hr : 0 ≤ cb.rtol)
    (s₁ s₂ : LState nx Inp) (k : KF nx) (hk : Holds s₁ k) (F : Matrix (Fin nx) (Fin nx) ℝ) (c : Fin nx → ℝ)
    (L : Matrix (Fin nx) (Fin nx) ℝ) (hdyn : tDynamics qr svd cb s₁ s₂.modelInputs = some (F, c, L))
    (hdet : (F * k.P * Fᵀ + L * Lᵀ).det ≠ 0) (p : Potential nx) (hAD : p.AD) (x : Fin nx → ℝ)
    (A : Matrix (Fin nx) (Fin nx) ℝ) (g : Fin nx → ℝ) (a : ℝ)
    (hobs : cb.getObservation (predictState qr D s₁ s₂.modelInputs (some (F, c, L))) s₂.modelInputs =
      .potential p fun i => some (x i))
    (hA : WellConditioned cb.rtol (-A)) (hp : p.value = quadratic A g a)
    (W : Matrix (Fin nx) (Fin nx) ℝ) (hW : W * Wᵀ = F * k.P * Fᵀ + L * Lᵀ) :
    ∃ (m' : Fin nx → ℝ) (L' : Matrix (Fin nx) (Fin nx) ℝ) (Z : ℝ≥0∞),
      (tCombineNonAssoc qr svd D cb s₁ s₂).mean = some m' ∧
      (tCombineNonAssoc qr svd D cb s₁ s₂).cholCov = some L' ∧ Z ≠ 0 ∧ Z ≠ ∞ ∧
      (gauss (F *ᵥ k.m + c) W).withDensity (fun z => ENNReal.ofReal (Real.exp (p.value z))) = Z • gauss m' L' := by
  have hApd := hA.posDef
  have hAs : A.IsSymm := by
    have := hA.1
    rw [Matrix.IsSymm, Matrix.transpose_neg, neg_inj] at this
    exact this
  have hAd : A.det ≠ 0 := by
    have := hApd.det_pos.ne'
    rw [Matrix.det_neg] at this
    exact right_ne_zero_of_mul this
  obtain ⟨μ, c', hval, hμ, hcd⟩ := quadratic_quadForm A hAs hAd g a
  rw [← hp] at hval hcd
  obtain ⟨hker, hzd⟩ := posDef_regular hApd
  obtain ⟨m', L', h1, h2, h3, h4⟩ := taylor_update_abs qr svd D cb hr s₁ s₂ k hk F c L hdyn hdet p x
    (fun i => -((-A) *ᵥ (x - μ)) i) (fun i => -((-A) *ᵥ (x - μ)) i) (-A) (-A) hobs hA.1 hA.semi (hA.semi.isAbs hr)
    (fun i => by rw [hAD.grad x hcd, hval, quadForm_grad hA.1, Matrix.zero_mulVec, zero_add])
    (fun i j => by rw [hAD.hess x hcd, hval, quadForm_hess hA.1])
    (Or.inr hzd) (fun i hi => absurd hi (hzd i)) (fun _ _ => rfl) (fun v hv i hi => absurd (congrFun (hker v hv) i) hi)
  rw [← hW] at h3 h4 hdet
  have hg : (-A) *ᵥ x + (fun i => -((-A) *ᵥ (x - μ)) i) = g := by
    have : (fun i => -((-A) *ᵥ (x - μ)) i) = -((-A) *ᵥ (x - μ)) := rfl
    rw [this, Matrix.mulVec_sub, Matrix.neg_mulVec, Matrix.neg_mulVec, hμ]
    abel
  rw [add_assoc, hg, ← sub_eq_add_neg] at h4
  rw [← sub_eq_add_neg] at h3
  have hPpd : (W * Wᵀ).PosDef := (isGram_of W).posDef hdet
  have hNpd : ((W * Wᵀ)⁻¹ - A).PosDef := by
    rw [sub_eq_add_neg]; exact hPpd.inv.add hApd
  obtain ⟨Z, mE, WE, z1, z2, z3, z4, z5⟩ := tilt_quadratic (F *ᵥ k.m + c) W A hdet hAs g a hNpd
  have hm : mE = m' := by
    have : ((W * Wᵀ)⁻¹ - A) *ᵥ (mE - m') = 0 := by rw [Matrix.mulVec_sub, z5, h4, sub_self]
    exact sub_eq_zero.mp ((posDef_regular hNpd).1 _ this)
  refine ⟨m', L', Z, h1, h2, z1, z2, ?_⟩
  rw [hp, z3, hm, gauss_eq_of_gram m' WE L' (by rw [← Matrix.inv_eq_right_inv z4, Matrix.inv_eq_right_inv h3])]

/-- **C99** (negation: convex log potentials). Let the Hessian `A` of the log potential at the linearisation point be
positive definite. Multiplying the predictive law by such a potential makes it wider: for a quadratic log
potential the exact law is the Gaussian law with precision `P⁻¹ - A`. The filter takes the absolute value of the
curvature and returns the law with precision `P⁻¹ + A`, which is narrower than the predictive law. -/
theorem taylor_convex_overconfident (qr : QR) (svd : SVD) (D : Dummies nx) (cb : TCallbacks nx ny Inp)
    (hr : 0 ≤ cb.rtol)
    (s₁ s₂ : LState nx Inp) (k : KF nx) (hk : Holds s₁ k) (F : Matrix (Fin nx) (Fin nx) ℝ) (c : Fin nx → ℝ)
    (L : Matrix (Fin nx) (Fin nx) ℝ) (hdyn : tDynamics qr svd cb s₁ s₂.modelInputs = some (F, c, L))
    (hdet : (F * k.P * Fᵀ + L * Lᵀ).det ≠ 0) (p : Potential nx) (hAD : p.AD) (x : Fin nx → ℝ)
    (A : Matrix (Fin nx) (Fin nx) ℝ) (g : Fin nx → ℝ) (a : ℝ)
    (hobs : cb.getObservation (predictState qr D s₁ s₂.modelInputs (some (F, c, L))) s₂.modelInputs =
      .potential p fun i => some (x i))
    (hA : WellConditioned cb.rtol A) (hp : p.value = quadratic A g a)
    (W : Matrix (Fin nx) (Fin nx) ℝ) (hW : W * Wᵀ = F * k.P * Fᵀ + L * Lᵀ) (hpd : ((W * Wᵀ)⁻¹ - A).PosDef) :
    ∃ (m' : Fin nx → ℝ) (L' : Matrix (Fin nx) (Fin nx) ℝ) (Z : ℝ≥0∞) (mE : Fin nx → ℝ) (WE : Matrix (Fin nx) (Fin nx) ℝ),
      (tCombineNonAssoc qr svd D cb s₁ s₂).mean = some m' ∧
      (tCombineNonAssoc qr svd D cb s₁ s₂).cholCov = some L' ∧ Z ≠ 0 ∧ Z ≠ ∞ ∧
      (gauss (F *ᵥ k.m + c) W).withDensity (fun z => ENNReal.ofReal (Real.exp (p.value z))) = Z • gauss mE WE ∧
      ((W * Wᵀ)⁻¹ - A) * (WE * WEᵀ) = 1 ∧ ((W * Wᵀ)⁻¹ + A) * (L' * L'ᵀ) = 1 ∧
      (W * Wᵀ - L' * L'ᵀ).PosDef ∧ (WE * WEᵀ - W * Wᵀ).PosDef := by
  have hAs := hA.1
  have hApd := hA.posDef
  obtain ⟨μ, c', hval, -, hcd⟩ := quadratic_quadForm A hAs hApd.det_pos.ne' g a
  rw [← hp] at hval hcd
  have hnA : (-A).IsSymm := by rw [Matrix.IsSymm, Matrix.transpose_neg, hAs]
  obtain ⟨hker, hzd⟩ := posDef_regular hApd
  obtain ⟨m', L', h1, h2, h3, -⟩ := taylor_update_abs qr svd D cb hr s₁ s₂ k hk F c L hdyn hdet p x
    (fun i => -((-A) *ᵥ (x - μ)) i) (fun i => -((-A) *ᵥ (x - μ)) i) (-A) A hobs hnA hA.semi (isAbs_neg hApd.posSemidef)
    (fun i => by rw [hAD.grad x hcd, hval, quadForm_grad hnA, Matrix.zero_mulVec, zero_add])
    (fun i j => by rw [hAD.hess x hcd, hval, quadForm_hess hnA])
    (Or.inr hzd) (fun i hi => absurd hi (hzd i)) (fun _ _ => rfl) (fun v hv i hi => absurd (congrFun (hker v hv) i) hi)
  rw [← hW] at h3 hdet
  obtain ⟨Z, mE, WE, z1, z2, z3, z4, -⟩ := tilt_quadratic (F *ᵥ k.m + c) W A hdet hAs g a hpd
  rw [← hp] at z3
  have hPpd : (W * Wᵀ).PosDef := (isGram_of W).posDef hdet
  refine ⟨m', L', Z, mE, WE, h1, h2, z1, z2, z3, z4, h3, inv_gap hPpd hApd h3, ?_⟩
  have hE : (WE * WEᵀ).PosDef := by
    rw [← Matrix.inv_eq_right_inv z4]; exact hpd.inv
  refine inv_gap hE hApd (P' := W * Wᵀ) ?_
  rw [Matrix.inv_eq_left_inv z4, sub_add_cancel, Matrix.nonsing_inv_mul _ hdet.isUnit]

/-- **C99** (negation: linear log potentials). A potential `exp (a + g·z)` with `g ≠ 0` moves the mean of the predictive
law by `P g`. With `ignore_nan_dims` the filter takes its zero Hessian for a missing observation and returns the
predictive law. -/
theorem taylor_linear_ignored (qr : QR) (svd : SVD) (D : Dummies nx) (cb : TCallbacks nx ny Inp)
    (hr : 0 ≤ cb.rtol) (hign : cb.ignoreNanDims = true)
    (s₁ s₂ : LState nx Inp) (k : KF nx) (hk : Holds s₁ k) (F : Matrix (Fin nx) (Fin nx) ℝ) (c : Fin nx → ℝ)
    (L : Matrix (Fin nx) (Fin nx) ℝ) (hdyn : tDynamics qr svd cb s₁ s₂.modelInputs = some (F, c, L))
    (hdet : (F * k.P * Fᵀ + L * Lᵀ).det ≠ 0) (p : Potential nx) (hAD : p.AD) (x g : Fin nx → ℝ) (a : ℝ) (hg : g ≠ 0)
    (hobs : cb.getObservation (predictState qr D s₁ s₂.modelInputs (some (F, c, L))) s₂.modelInputs =
      .potential p fun i => some (x i))
    (hp : p.value = quadratic 0 g a)
    (W : Matrix (Fin nx) (Fin nx) ℝ) (hW : W * Wᵀ = F * k.P * Fᵀ + L * Lᵀ) :
    ∃ (L' : Matrix (Fin nx) (Fin nx) ℝ) (Z : ℝ≥0∞) (mE : Fin nx → ℝ),
      (tCombineNonAssoc qr svd D cb s₁ s₂).mean = some (F *ᵥ k.m + c) ∧
      (tCombineNonAssoc qr svd D cb s₁ s₂).cholCov = some L' ∧ L' * L'ᵀ = W * Wᵀ ∧ Z ≠ 0 ∧ Z ≠ ∞ ∧
      (gauss (F *ᵥ k.m + c) W).withDensity (fun z => ENNReal.ofReal (Real.exp (p.value z))) = Z • gauss mE W ∧
      mE = F *ᵥ k.m + c + (W * Wᵀ) *ᵥ g ∧ mE ≠ F *ᵥ k.m + c := by
  have hfun : p.value = fun z => a + g ⬝ᵥ z := by
    funext z
    rw [hp, quadratic, Matrix.zero_mulVec, dotProduct_zero, mul_zero, add_zero]
  have hcd : ContDiff ℝ 2 p.value := by
    rw [hfun]
    simp only [dotProduct]
    fun_prop
  have hgrad : ∀ (z : Fin nx → ℝ) i, lineDeriv ℝ p.value z (Pi.single i 1) = g i := fun z i => by
    rw [lineDeriv_affine _ g, dotProduct_single_one]
    intro t
    rw [hfun]
    simp only []
    rw [dotProduct_add, dotProduct_smul, smul_eq_mul]
    ring
  have hz0 : ∀ i, ZeroDim (0 : Matrix (Fin nx) (Fin nx) ℝ) i := fun i => ⟨fun _ => rfl, fun _ => rfl⟩
  have hs0 : SemiConditioned cb.rtol (0 : Matrix (Fin nx) (Fin nx) ℝ) :=
    ⟨Matrix.isSymm_zero, 1, one_pos, fun v μ hv h => Or.inl (by
      rw [Matrix.zero_mulVec] at h
      exact (smul_eq_zero.mp h.symm).resolve_right hv)⟩
  obtain ⟨m', L', h1, h2, h3, h4⟩ := taylor_update_abs qr svd D cb hr s₁ s₂ k hk F c L hdyn hdet p x
    g 0 0 0 hobs Matrix.isSymm_zero hs0 (hs0.isAbs hr)
    (fun i => by rw [hAD.grad x hcd, hgrad])
    (fun i j => by
      rw [hAD.hess x hcd]
      simp only [hgrad]
      simp [lineDeriv])
    (Or.inl hign) (fun i _ => rfl) (fun i hi => absurd (hz0 i) hi) (fun v _ i _ => hz0 i)
  rw [← hW] at h3 h4 hdet
  rw [add_zero] at h3 h4
  rw [Matrix.zero_mulVec, add_zero, add_zero] at h4
  have hu : IsUnit (W * Wᵀ).det := hdet.isUnit
  have hm : m' = F *ᵥ k.m + c := by
    have := congrArg (fun v => (W * Wᵀ) *ᵥ v) h4
    simpa only [Matrix.mulVec_mulVec, Matrix.mul_nonsing_inv _ hu, Matrix.one_mulVec] using this
  have hPpd : (W * Wᵀ).PosDef := (isGram_of W).posDef hdet
  obtain ⟨Z, mE, WE, z1, z2, z3, z4, z5⟩ := tilt_quadratic (F *ᵥ k.m + c) W 0 hdet Matrix.isSymm_zero g a (by
    rw [sub_zero]; exact hPpd.inv)
  rw [sub_zero] at z4 z5
  have hcov : WE * WEᵀ = W * Wᵀ := by
    have := congrArg (fun v => (W * Wᵀ) * v) z4
    simpa only [← Matrix.mul_assoc, Matrix.mul_nonsing_inv _ hu, Matrix.one_mul, Matrix.mul_one] using this
  have hmE : mE = F *ᵥ k.m + c + (W * Wᵀ) *ᵥ g := by
    have := congrArg (fun v => (W * Wᵀ) *ᵥ v) z5
    rwa [Matrix.mulVec_add, Matrix.mulVec_mulVec, Matrix.mulVec_mulVec, Matrix.mul_nonsing_inv _ hu, Matrix.one_mulVec,
      Matrix.one_mulVec] at this
  refine ⟨L', Z, mE, by rw [h1, hm], h2, ?_, z1, z2, ?_, hmE, fun h => hg ?_⟩
  · have := congrArg (fun v => (W * Wᵀ) * v) h3
    simpa only [← Matrix.mul_assoc, Matrix.mul_nonsing_inv _ hu, Matrix.one_mul, Matrix.mul_one] using this
  · rw [hp, z3, gauss_eq_of_gram mE WE W hcov]
  · rw [hmE, add_eq_left] at h
    have := congrArg (fun v => (W * Wᵀ)⁻¹ *ᵥ v) h
    simpa only [Matrix.mulVec_mulVec, Matrix.nonsing_inv_mul _ hu, Matrix.one_mulVec, Matrix.mulVec_zero] using this

/-! ## Non-vacuity -/

/-- A two-dimensional random walk with a potential given by any quadratic function. -/
theorem exists_quadratic_model (A : Matrix (Fin 2) (Fin 2) ℝ) (g : Fin 2 → ℝ) (a : ℝ) :
    ∃ (cb : TCallbacks 2 0 Unit) (p : Potential 2), p.AD ∧ p.value = quadratic A g a ∧ cb.rtol = 1 / 10 ∧
      cb.ignoreNanDims = true ∧ ∀ (qr : QR) (svd : SVD) (D : Dummies 2), ∃ (s₁ s₂ : LState 2 Unit) (k : KF 2)
        (L : Matrix (Fin 2) (Fin 2) ℝ) (x : Fin 2 → ℝ), Holds s₁ k ∧
        tDynamics qr svd cb s₁ s₂.modelInputs = some (1, 0, L) ∧
        1 * k.P * 1ᵀ + L * Lᵀ = (2 : ℝ) • (1 : Matrix (Fin 2) (Fin 2) ℝ) ∧
        cb.getObservation (predictState qr D s₁ s₂.modelInputs (some (1, 0, L))) s₂.modelInputs =
          .potential p fun i => some (x i) := by
  have hone : WellConditioned (1 / 10) ((1 : Matrix (Fin 2) (Fin 2) ℝ) * (1 : Matrix (Fin 2) (Fin 2) ℝ)ᵀ) := by
    rw [Matrix.transpose_one, Matrix.mul_one]
    exact ⟨Matrix.isSymm_one, 1, 1, one_pos, by norm_num, fun x => by simp⟩
  obtain ⟨pi, hpi, hpiAD⟩ := exists_potential (n := 2) fun x => gaussLogDensity 0 (1 * 1ᵀ) x + 0
  obtain ⟨pd, hpdAD, hpd⟩ := exists_gaussian_condDensity (nx := 2) (ny := 2) 1 0 (1 * 1ᵀ)
  obtain ⟨pp, hpp, hppAD⟩ := exists_potential (n := 2) (quadratic A g a)
  have htr : IsGaussianTransition (1 / 10) pd 1 0 ((1 : Matrix (Fin 2) (Fin 2) ℝ) * 1ᵀ) := by
    refine ⟨hpdAD, hone, 0, fun x z => ?_⟩
    have h1 := hpd (fun i => some (z i)) x (fun i => z i.1)
    have h2 : fillObs (fun i => some (z i)) (fun i : Obs (fun i => some (z i)) => z i.1) =
        fun i => some (z i) := by
      funext i; simp [fillObs]
    rw [h2] at h1
    rw [h1, ← gaussLogDensity_reindex (obsAll z)]; rfl
  refine ⟨{ getInit := fun _ => (pi, fun _ => some 7)
            getDynamics := fun _ _ => (pd, fun _ => some 3, fun _ => some 4)
            getObservation := fun _ _ => .potential pp fun _ => some 5
            rtol := 1 / 10
            ignoreNanDims := true }, pp, hppAD, hpp, rfl, rfl, fun qr svd D => ?_⟩
  obtain ⟨L', -, hL', hlin⟩ := htr.linearize qr svd (by norm_num) true (fun _ => 3) (fun _ => 4)
  refine ⟨dummyElem D (some 0) 1 (some 0) () (some D.vec), prepareNonAssoc D (), ⟨0, 1, 0⟩, L', fun _ => 5,
    ⟨rfl, ⟨1, rfl, by simp⟩, rfl⟩, ?_, ?_, rfl⟩
  · unfold tDynamics
    simp only []
    rw [hlin, if_neg (fun hs => by have := hs.1 0; cases this), finite_some _ (1 : Matrix (Fin 2) (Fin 2) ℝ) fun _ _ => rfl,
      finiteVec_some _ (0 : Fin 2 → ℝ) fun _ => rfl, finite_some _ L' fun _ _ => rfl]
    rfl
  · rw [hL']
    simp [two_smul]

/-- A convex and a concave potential that meet the conditions above. -/
example : WellConditioned (1 / 10) ((1 / 4 : ℝ) • (1 : Matrix (Fin 2) (Fin 2) ℝ)) ∧
    WellConditioned (1 / 10) (-((-(1 / 4) : ℝ) • (1 : Matrix (Fin 2) (Fin 2) ℝ))) ∧
    ((√2 • (1 : Matrix (Fin 2) (Fin 2) ℝ)) * (√2 • (1 : Matrix (Fin 2) (Fin 2) ℝ))ᵀ) =
      (2 : ℝ) • (1 : Matrix (Fin 2) (Fin 2) ℝ) ∧
    (((2 : ℝ) • (1 : Matrix (Fin 2) (Fin 2) ℝ))⁻¹ - (1 / 4 : ℝ) • (1 : Matrix (Fin 2) (Fin 2) ℝ)).PosDef := by
  have h1 : WellConditioned (1 / 10) ((1 / 4 : ℝ) • (1 : Matrix (Fin 2) (Fin 2) ℝ)) :=
    ⟨by rw [Matrix.IsSymm, Matrix.transpose_smul, Matrix.transpose_one], 1 / 4, 1 / 4, by norm_num, by norm_num,
      fun x => by rw [Matrix.smul_mulVec, Matrix.one_mulVec, dotProduct_smul, smul_eq_mul]; exact ⟨le_rfl, le_rfl⟩⟩
  refine ⟨h1, ?_, ?_, ?_⟩
  · rwa [neg_smul, neg_neg]
  · rw [Matrix.transpose_smul, Matrix.transpose_one, Matrix.smul_mul, Matrix.mul_smul, Matrix.mul_one, smul_smul,
      Real.mul_self_sqrt (by norm_num)]
  · have e : ((2 : ℝ) • (1 : Matrix (Fin 2) (Fin 2) ℝ))⁻¹ = (1 / 2 : ℝ) • (1 : Matrix (Fin 2) (Fin 2) ℝ) := by
      refine Matrix.inv_eq_right_inv ?_
      rw [Matrix.smul_mul, Matrix.mul_smul, Matrix.mul_one, smul_smul]
      norm_num
    rw [e, ← sub_smul]
    have := h1.posDef
    norm_num at this ⊢
    exact this

end

end Cuthbert.Linearize
