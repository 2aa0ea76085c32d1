import Verif.Spec.Gaussian
import Mathlib.Probability.Distributions.Gaussian.Multivariate
import Mathlib.MeasureTheory.Integral.Pi
import Mathlib.MeasureTheory.Measure.CharacteristicFunction.Basic

/-!
# Lemmas about Gaussian laws
-/

namespace Cuthbert
open MeasureTheory ProbabilityTheory Matrix
open scoped ENNReal

noncomputable section

set_option linter.unusedSectionVars false

variable {ι κ κ' μ : Type*} [Fintype ι] [Fintype κ] [Fintype κ'] [Fintype μ]

instance : IsProbabilityMeasure (stdNormal κ) := by unfold stdNormal; infer_instance

theorem measurable_mulVec (L : Matrix ι κ ℝ) : Measurable fun ε : κ → ℝ => L *ᵥ ε := by
  refine measurable_pi_lambda _ fun i => ?_
  simp only [Matrix.mulVec, dotProduct]
  fun_prop

theorem measurable_affine (m : ι → ℝ) (L : Matrix ι κ ℝ) :
    Measurable fun ε : κ → ℝ => m + L *ᵥ ε :=
  (measurable_const).add (measurable_mulVec L)

instance (m : ι → ℝ) (L : Matrix ι κ ℝ) : IsProbabilityMeasure (gauss m L) :=
  Measure.isProbabilityMeasure_map (measurable_affine m L).aemeasurable

theorem lintegral_gauss (m : ι → ℝ) (L : Matrix ι κ ℝ) {f : (ι → ℝ) → ℝ≥0∞} (hf : Measurable f) :
    ∫⁻ x, f x ∂gauss m L = ∫⁻ ε, f (m + L *ᵥ ε) ∂stdNormal κ :=
  lintegral_map hf (measurable_affine m L)

/-- Characteristic function of the standard normal. -/
theorem charFun_stdNormal (b : κ → ℝ) :
    ∫ ε, Complex.exp (((b ⬝ᵥ ε : ℝ) : ℂ) * Complex.I) ∂stdNormal κ =
      Complex.exp ((-(1 / 2) * (b ⬝ᵥ b) : ℝ)) := by
  have h1 : ∀ ε : κ → ℝ, Complex.exp (((b ⬝ᵥ ε : ℝ) : ℂ) * Complex.I) =
      ∏ i, Complex.exp ((b i : ℂ) * (ε i : ℂ) * Complex.I) := by
    intro ε
    rw [← Complex.exp_sum]
    congr 1
    rw [dotProduct, Complex.ofReal_sum, Finset.sum_mul]
    simp only [Complex.ofReal_mul]
  simp only [h1, stdNormal]
  rw [integral_fintype_prod_eq_prod (fun i (x : ℝ) => Complex.exp ((b i : ℂ) * (x : ℂ) * Complex.I))]
  have h2 : ∀ i, ∫ x : ℝ, Complex.exp ((b i : ℂ) * (x : ℂ) * Complex.I) ∂gaussianReal 0 1 =
      Complex.exp ((-(1 / 2) * (b i * b i) : ℝ)) := by
    intro i
    rw [← charFun_apply_real, charFun_gaussianReal]
    congr 1
    push_cast
    simp
    ring
  simp only [h2]
  rw [← Complex.exp_sum]
  congr 1
  rw [← Complex.ofReal_sum, dotProduct, Finset.mul_sum]

/-- Characteristic function of `gauss m L`. -/
theorem charFunDual_gauss (m : ι → ℝ) (L : Matrix ι κ ℝ) (φ : StrongDual ℝ (ι → ℝ)) :
    ∃ a : ι → ℝ, (∀ x, φ x = a ⬝ᵥ x) ∧ charFunDual (gauss m L) φ =
      Complex.exp (((a ⬝ᵥ m : ℝ) : ℂ) * Complex.I) *
        Complex.exp ((-(1 / 2) * (a ⬝ᵥ (L * Lᵀ) *ᵥ a) : ℝ)) := by
  classical
  refine ⟨fun i => φ (Pi.single i 1), ?_, ?_⟩
  · intro x
    conv_lhs => rw [← Finset.univ_sum_single x]
    rw [map_sum, dotProduct]
    refine Finset.sum_congr rfl fun i _ => ?_
    have : Pi.single (M := fun _ => ℝ) i (x i) = x i • Pi.single i 1 := by
      rw [← Pi.single_smul, smul_eq_mul, mul_one]
    rw [this, map_smul, smul_eq_mul, mul_comm]
  · set a : ι → ℝ := fun i => φ (Pi.single i 1) with ha
    have hφ : ∀ x, φ x = a ⬝ᵥ x := by
      intro x
      conv_lhs => rw [← Finset.univ_sum_single x]
      rw [map_sum, dotProduct]
      refine Finset.sum_congr rfl fun i _ => ?_
      have : Pi.single (M := fun _ => ℝ) i (x i) = x i • Pi.single i 1 := by
        rw [← Pi.single_smul, smul_eq_mul, mul_one]
      rw [this, map_smul, smul_eq_mul, mul_comm]
    rw [charFunDual_apply, gauss, integral_map (measurable_affine m L).aemeasurable
      (by exact Continuous.aestronglyMeasurable (by fun_prop))]
    have h1 : ∀ ε : κ → ℝ, Complex.exp ((φ (m + L *ᵥ ε) : ℝ) * Complex.I) =
        Complex.exp (((a ⬝ᵥ m : ℝ) : ℂ) * Complex.I) *
          Complex.exp (((Lᵀ *ᵥ a) ⬝ᵥ ε : ℝ) * Complex.I) := by
      intro ε
      rw [← Complex.exp_add, hφ, dotProduct_add, dotProduct_mulVec, Matrix.mulVec_transpose]
      congr 1
      push_cast
      ring
    simp only [h1]
    rw [integral_const_mul, charFun_stdNormal]
    congr 3
    have : (Lᵀ *ᵥ a) ⬝ᵥ (Lᵀ *ᵥ a) = a ⬝ᵥ (L * Lᵀ) *ᵥ a := by
      rw [← Matrix.mulVec_mulVec, dotProduct_mulVec a L, ← Matrix.mulVec_transpose]
    rw [this]

/-- The law depends on the factor only through `L Lᵀ`. -/
theorem gauss_eq_of_gram (m : ι → ℝ) (L : Matrix ι κ ℝ) (M : Matrix ι κ' ℝ)
    (h : L * Lᵀ = M * Mᵀ) : gauss m L = gauss m M := by
  refine Measure.ext_of_charFunDual ?_
  funext φ
  obtain ⟨a, ha, h1⟩ := charFunDual_gauss m L φ
  obtain ⟨b, hb, h2⟩ := charFunDual_gauss m M φ
  have hab : a = b := by
    classical
    funext i
    have := (ha (Pi.single i 1)).symm.trans (hb (Pi.single i 1))
    simpa using this
  rw [h1, h2, hab, h]

/-- Conversely the law determines mean and covariance. -/
theorem gram_eq_of_gauss_eq {m m' : ι → ℝ} {L : Matrix ι κ ℝ} {M : Matrix ι κ' ℝ}
    (h : gauss m L = gauss m' M) : ∀ a : ι → ℝ,
      Complex.exp (((a ⬝ᵥ m : ℝ) : ℂ) * Complex.I) *
        Complex.exp ((-(1 / 2) * (a ⬝ᵥ (L * Lᵀ) *ᵥ a) : ℝ)) =
      Complex.exp (((a ⬝ᵥ m' : ℝ) : ℂ) * Complex.I) *
        Complex.exp ((-(1 / 2) * (a ⬝ᵥ (M * Mᵀ) *ᵥ a) : ℝ)) := by
  classical
  intro a
  let φ : StrongDual ℝ (ι → ℝ) := LinearMap.toContinuousLinearMap
    { toFun := fun x => a ⬝ᵥ x
      map_add' := fun x y => dotProduct_add a x y
      map_smul' := fun c x => by simp [dotProduct_smul] }
  obtain ⟨a1, h1, e1⟩ := charFunDual_gauss m L φ
  obtain ⟨a2, h2, e2⟩ := charFunDual_gauss m' M φ
  have hx : ∀ x, φ x = a ⬝ᵥ x := fun x => rfl
  have ha1 : a1 = a := by
    funext i
    have := (h1 (Pi.single i 1)).symm.trans (hx _)
    simpa using this
  have ha2 : a2 = a := by
    funext i
    have := (h2 (Pi.single i 1)).symm.trans (hx _)
    simpa using this
  rw [ha1] at e1
  rw [ha2] at e2
  rw [← e1, ← e2, h]

/-- Affine image of a Gaussian law. -/
theorem gauss_map_affine (m : ι → ℝ) (L : Matrix ι κ ℝ) (A : Matrix μ ι ℝ) (b : μ → ℝ) :
    (gauss m L).map (fun x => A *ᵥ x + b) = gauss (A *ᵥ m + b) (A * L) := by
  have hm : Measurable fun x : ι → ℝ => A *ᵥ x + b := (measurable_mulVec A).add measurable_const
  rw [gauss, Measure.map_map hm (measurable_affine m L), gauss]
  congr 1
  funext ε
  simp only [Function.comp_apply, Matrix.mulVec_add, Matrix.mulVec_mulVec]
  abel

/-- `gauss m L` is Mathlib's multivariate Gaussian with mean `m` and covariance `L Lᵀ`. -/
theorem gauss_eq_multivariateGaussian [DecidableEq ι] (m : ι → ℝ) (L : Matrix ι κ ℝ) :
    (gauss m L).map (WithLp.toLp 2) = multivariateGaussian (WithLp.toLp 2 m) (L * Lᵀ) := by
  have hps : (L * Lᵀ).PosSemidef := by
    have := Matrix.posSemidef_self_mul_conjTranspose L
    rwa [Matrix.conjTranspose_eq_transpose_of_trivial] at this
  have hpm : IsProbabilityMeasure ((gauss m L).map (WithLp.toLp 2) :
      Measure (EuclideanSpace ℝ ι)) :=
    Measure.isProbabilityMeasure_map (by fun_prop)
  refine Measure.ext_of_charFun ?_
  funext t
  rw [charFun_multivariateGaussian hps, charFun_apply, integral_map (by fun_prop)
    (by exact Continuous.aestronglyMeasurable (by fun_prop)), gauss,
    integral_map (measurable_affine m L).aemeasurable
      (by exact Continuous.aestronglyMeasurable (by fun_prop))]
  set a : ι → ℝ := WithLp.ofLp t with ha
  have h0 : ∀ x : ι → ℝ, inner ℝ (WithLp.toLp 2 x) t = a ⬝ᵥ x := by
    intro x
    rw [EuclideanSpace.inner_eq_star_dotProduct]
    simp [ha]
  have h1 : ∀ ε : κ → ℝ, Complex.exp ((inner ℝ (WithLp.toLp 2 (m + L *ᵥ ε)) t : ℝ) * Complex.I) =
      Complex.exp (((a ⬝ᵥ m : ℝ) : ℂ) * Complex.I) *
        Complex.exp (((Lᵀ *ᵥ a) ⬝ᵥ ε : ℝ) * Complex.I) := by
    intro ε
    rw [← Complex.exp_add, h0, dotProduct_add, dotProduct_mulVec, Matrix.mulVec_transpose]
    congr 1
    push_cast
    ring
  simp only [h1]
  rw [integral_const_mul, charFun_stdNormal, ← Complex.exp_add]
  have h2 : (Lᵀ *ᵥ a) ⬝ᵥ (Lᵀ *ᵥ a) = a ⬝ᵥ (L * Lᵀ) *ᵥ a := by
    rw [← Matrix.mulVec_mulVec, dotProduct_mulVec a L, ← Matrix.mulVec_transpose]
  rw [h2, real_inner_comm, h0]
  congr 1
  push_cast
  ring

/-- Independent blocks of noise. -/
theorem lintegral_stdNormal_sum {f : (κ ⊕ κ' → ℝ) → ℝ≥0∞} (hf : Measurable f) :
    ∫⁻ ε, f ε ∂stdNormal (κ ⊕ κ') =
      ∫⁻ ε, ∫⁻ η, f (Sum.elim ε η) ∂stdNormal κ' ∂stdNormal κ := by
  have h := measurePreserving_sumPiEquivProdPi_symm (X := fun _ : κ ⊕ κ' => ℝ)
    (fun _ => gaussianReal 0 1)
  unfold stdNormal
  rw [← h.lintegral_comp hf]
  rw [lintegral_prod (fun p => f ((MeasurableEquiv.sumPiEquivProdPi fun _ : κ ⊕ κ' => ℝ).symm p))
    (hf.comp h.measurable).aemeasurable]
  have he : ∀ (x : κ → ℝ) (y : κ' → ℝ),
      (MeasurableEquiv.sumPiEquivProdPi fun _ : κ ⊕ κ' => ℝ).symm (x, y) = Sum.elim x y := by
    intro x y
    funext i
    cases i <;> rfl
  simp only [he]

theorem measurable_sumElim : Measurable fun p : (ι → ℝ) × (μ → ℝ) =>
    (Sum.elim p.1 p.2 : ι ⊕ μ → ℝ) := by
  refine measurable_pi_lambda _ fun i => ?_
  cases i with
  | inl i => exact (measurable_pi_apply i).comp measurable_fst
  | inr i => exact (measurable_pi_apply i).comp measurable_snd

theorem fromBlocks_affine {α β : Type*} [Fintype α] [Fintype β] (a : ι → ℝ) (c : μ → ℝ)
    (A : Matrix ι α ℝ) (B : Matrix ι β ℝ) (C : Matrix μ α ℝ) (D : Matrix μ β ℝ) (ε : α → ℝ)
    (η : β → ℝ) : Sum.elim a c + fromBlocks A B C D *ᵥ Sum.elim ε η =
      Sum.elim (a + (A *ᵥ ε + B *ᵥ η)) (c + (C *ᵥ ε + D *ᵥ η)) := by
  rw [fromBlocks_mulVec]
  funext i
  cases i <;> rfl

/-- Two linear recipes for a pair of vectors from independent noises have the same joint law as soon as
the stacked factors have the same Gram matrix. -/
theorem lintegral_pair_eq {α β γ δ : Type*} [Fintype α] [Fintype β] [Fintype γ] [Fintype δ]
    (a : ι → ℝ) (c : μ → ℝ)
    (A : Matrix ι α ℝ) (B : Matrix ι β ℝ) (C : Matrix μ α ℝ) (D : Matrix μ β ℝ)
    (A' : Matrix ι γ ℝ) (B' : Matrix ι δ ℝ) (C' : Matrix μ γ ℝ) (D' : Matrix μ δ ℝ)
    (h11 : A * Aᵀ + B * Bᵀ = A' * A'ᵀ + B' * B'ᵀ)
    (h21 : C * Aᵀ + D * Bᵀ = C' * A'ᵀ + D' * B'ᵀ)
    (h22 : C * Cᵀ + D * Dᵀ = C' * C'ᵀ + D' * D'ᵀ)
    {f : (ι → ℝ) × (μ → ℝ) → ℝ≥0∞} (hf : Measurable f) :
    ∫⁻ ε, ∫⁻ η, f (a + (A *ᵥ ε + B *ᵥ η), c + (C *ᵥ ε + D *ᵥ η)) ∂stdNormal β ∂stdNormal α =
      ∫⁻ ε, ∫⁻ η, f (a + (A' *ᵥ ε + B' *ᵥ η), c + (C' *ᵥ ε + D' *ᵥ η)) ∂stdNormal δ ∂stdNormal γ := by
  have key := gauss_eq_of_gram (Sum.elim a c) (fromBlocks A B C D) (fromBlocks A' B' C' D') (by
    rw [fromBlocks_transpose, fromBlocks_transpose, fromBlocks_multiply, fromBlocks_multiply]
    have h12 : A * Cᵀ + B * Dᵀ = A' * C'ᵀ + B' * D'ᵀ := by
      have := congrArg Matrix.transpose h21
      simpa [Matrix.transpose_add, Matrix.transpose_mul] using this
    rw [h11, h21, h22, h12])
  let g : (ι ⊕ μ → ℝ) → ℝ≥0∞ := fun z => f (fun i => z (.inl i), fun j => z (.inr j))
  have hg : Measurable g := by
    refine hf.comp (Measurable.prodMk ?_ ?_) <;>
      exact measurable_pi_lambda _ fun i => measurable_pi_apply _
  have h1 := congrArg (fun ν => ∫⁻ z, g z ∂ν) key
  simp only [lintegral_gauss _ _ hg] at h1
  rw [lintegral_stdNormal_sum (f := fun ε => g (Sum.elim a c + fromBlocks A B C D *ᵥ ε))
      (hg.comp (measurable_affine _ _)),
    lintegral_stdNormal_sum (f := fun ε => g (Sum.elim a c + fromBlocks A' B' C' D' *ᵥ ε))
      (hg.comp (measurable_affine _ _))] at h1
  simpa only [fromBlocks_affine, g, Sum.elim_inl, Sum.elim_inr] using h1

/-! ### Density -/

theorem lintegral_fintype_prod [DecidableEq κ] (f : κ → ℝ → ℝ≥0∞) (hf : ∀ i, Measurable (f i)) :
    ∫⁻ x : κ → ℝ, ∏ i, f i (x i) = ∏ i, ∫⁻ x, f i x := by
  have hfin : ∀ (n : ℕ) (f : Fin n → ℝ → ℝ≥0∞), (∀ i, Measurable (f i)) →
      ∫⁻ x : Fin n → ℝ, ∏ i, f i (x i) = ∏ i, ∫⁻ x, f i x := by
    intro n
    induction n with
    | zero => intro f _; simp [volume_pi]
    | succ n ih =>
      intro f hf
      have hmp := (volume_preserving_piFinSuccAbove (fun _ : Fin (n + 1) => ℝ) 0).symm
      rw [← hmp.lintegral_comp (by fun_prop)]
      have he : ∀ p : ℝ × (Fin n → ℝ), ∏ i, f i
          ((MeasurableEquiv.piFinSuccAbove (fun _ : Fin (n + 1) => ℝ) 0).symm p i) =
            f 0 p.1 * ∏ i : Fin n, f i.succ (p.2 i) := by
        intro p
        rw [Fin.prod_univ_succ]
        rfl
      simp only [he]
      have hm2 : Measurable fun z : Fin n → ℝ => ∏ i : Fin n, f i.succ (z i) :=
        Finset.measurable_prod _ fun i _ => (hf _).comp (measurable_pi_apply i)
      rw [Measure.volume_eq_prod, lintegral_prod_mul (hf 0).aemeasurable hm2.aemeasurable,
        ih _ fun i => hf _, Fin.prod_univ_succ]
  let e := (Fintype.equivFin κ).symm
  have hmp := volume_measurePreserving_piCongrLeft (fun _ : κ => ℝ) e
  have hm1 : Measurable fun z : κ → ℝ => ∏ i, f i (z i) :=
    Finset.measurable_prod _ fun i _ => (hf _).comp (measurable_pi_apply i)
  rw [← hmp.lintegral_comp hm1]
  simp_rw [← e.prod_comp, MeasurableEquiv.coe_piCongrLeft, Equiv.piCongrLeft_apply_apply]
  exact hfin _ _ fun i => hf _

/-- The standard normal law has the product density. -/
theorem stdNormal_eq_withDensity [DecidableEq κ] :
    stdNormal κ = volume.withDensity fun x => ∏ i, gaussianPDF 0 1 (x i) := by
  refine Measure.pi_eq fun s hs => ?_
  rw [withDensity_apply _ (MeasurableSet.univ_pi hs)]
  rw [← lintegral_indicator (MeasurableSet.univ_pi hs)]
  have h1 : ∀ x : κ → ℝ, (Set.univ.pi s).indicator (fun x => ∏ i, gaussianPDF 0 1 (x i)) x =
      ∏ i, (s i).indicator (gaussianPDF 0 1) (x i) := by
    intro x
    by_cases hx : x ∈ Set.univ.pi s
    · rw [Set.indicator_of_mem hx]
      refine Finset.prod_congr rfl fun i _ => ?_
      rw [Set.indicator_of_mem (hx i (Set.mem_univ i))]
    · rw [Set.indicator_of_notMem hx]
      simp only [Set.mem_univ_pi, not_forall] at hx
      obtain ⟨i, hi⟩ := hx
      rw [Finset.prod_eq_zero (Finset.mem_univ i)]
      rw [Set.indicator_of_notMem hi]
  simp only [h1]
  rw [lintegral_fintype_prod _ fun i => (measurable_gaussianPDF 0 1).indicator (hs i)]
  refine Finset.prod_congr rfl fun i _ => ?_
  rw [lintegral_indicator (hs i), gaussianReal_apply 0 one_ne_zero]

theorem prod_gaussianPDF (x : κ → ℝ) :
    ∏ i, gaussianPDF 0 1 (x i) =
      ENNReal.ofReal (Real.exp (-(1 / 2) * (x ⬝ᵥ x) - Fintype.card κ / 2 * Real.log (2 * Real.pi))) := by
  have h1 : ∀ r : ℝ, gaussianPDF 0 1 r =
      ENNReal.ofReal (Real.exp (-(1 / 2) * (r * r) - 1 / 2 * Real.log (2 * Real.pi))) := by
    intro r
    rw [gaussianPDF_def, gaussianPDFReal_def]
    rw [Real.exp_sub]
    have h2 : Real.exp (1 / 2 * Real.log (2 * Real.pi)) = Real.sqrt (2 * Real.pi) := by
      rw [Real.sqrt_eq_rpow, Real.rpow_def_of_pos (by positivity), mul_comm]
    rw [h2]
    simp only [NNReal.coe_one, mul_one, sub_zero]
    rw [show -(r ^ 2) / 2 = -(1 / 2) * (r * r) by ring]
    rw [div_eq_inv_mul (Real.exp _)]
  simp only [h1]
  rw [← ENNReal.ofReal_prod_of_nonneg fun i _ => (Real.exp_pos _).le, ← Real.exp_sum]
  congr 2
  rw [Finset.sum_sub_distrib, ← Finset.mul_sum, Finset.sum_const, dotProduct, nsmul_eq_mul,
    Finset.card_univ]
  ring

/-- **Density.** A Gaussian law with a nonsingular square factor has the textbook density. -/
theorem gauss_eq_withDensity [DecidableEq ι] (m : ι → ℝ) (W : Matrix ι ι ℝ) (hW : W.det ≠ 0) :
    gauss m W = volume.withDensity fun y => ENNReal.ofReal (Real.exp (gaussLogDensity m (W * Wᵀ) y)) := by
  have hu : IsUnit W.det := isUnit_iff_ne_zero.mpr hW
  have hWi : (W⁻¹).det ≠ 0 := by
    rw [Matrix.det_nonsing_inv]
    rw [Ring.inverse_eq_inv]; exact inv_ne_zero hW
  have hmeas : Measurable fun y => ENNReal.ofReal (Real.exp (gaussLogDensity m (W * Wᵀ) y)) := by
    unfold gaussLogDensity
    simp only [dotProduct, Matrix.mulVec]
    fun_prop
  refine Measure.ext_of_lintegral _ fun f hf => ?_
  have hmp : Measurable fun x : ι → ℝ => ∏ i, gaussianPDF 0 1 (x i) :=
    Finset.measurable_prod _ fun i _ => (measurable_gaussianPDF 0 1).comp (measurable_pi_apply i)
  have hmc : Measurable fun ε : ι → ℝ => f (m + W *ᵥ ε) := hf.comp (measurable_affine m W)
  rw [lintegral_gauss m W hf, stdNormal_eq_withDensity,
    lintegral_withDensity_eq_lintegral_mul _ hmp hmc,
    lintegral_withDensity_eq_lintegral_mul _ hmeas hf]
  -- change of variables y = m + W ε
  have hmap := Real.map_matrix_volume_pi_eq_smul_volume_pi hW
  have h2 : ∫⁻ y, f y * ENNReal.ofReal (Real.exp (gaussLogDensity m (W * Wᵀ) y)) =
      ∫⁻ y, f (m + y) * ENNReal.ofReal (Real.exp (gaussLogDensity m (W * Wᵀ) (m + y))) := by
    rw [lintegral_add_left_eq_self
      (fun y => f y * ENNReal.ofReal (Real.exp (gaussLogDensity m (W * Wᵀ) y))) m]
  have hg : Measurable fun y => f (m + y) *
      ENNReal.ofReal (Real.exp (gaussLogDensity m (W * Wᵀ) (m + y))) :=
    ((hf.mul hmeas).comp (measurable_const.add measurable_id))
  have h3 : ∫⁻ ε, f (m + W *ᵥ ε) *
      ENNReal.ofReal (Real.exp (gaussLogDensity m (W * Wᵀ) (m + W *ᵥ ε))) =
      ENNReal.ofReal |(W.det)⁻¹| * ∫⁻ y, f (m + y) *
        ENNReal.ofReal (Real.exp (gaussLogDensity m (W * Wᵀ) (m + y))) := by
    have := lintegral_map (μ := volume) hg (measurable_mulVec W)
    have hto : (fun ε => W *ᵥ ε) = ⇑(toLin' W) := by funext ε; simp
    rw [hto, hmap, lintegral_smul_measure] at this
    rw [smul_eq_mul] at this
    rw [this]
  have hlog : ∀ ε : ι → ℝ, (∏ i, gaussianPDF 0 1 (ε i)) =
      ENNReal.ofReal |W.det| *
        ENNReal.ofReal (Real.exp (gaussLogDensity m (W * Wᵀ) (m + W *ᵥ ε))) := by
    intro ε
    rw [prod_gaussianPDF, ← ENNReal.ofReal_mul (abs_nonneg _)]
    congr 1
    have hdet : Real.log (W * Wᵀ).det = 2 * Real.log |W.det| := by
      rw [Matrix.det_mul, Matrix.det_transpose, Real.log_abs, Real.log_mul hW hW]; ring
    have hq : (m + W *ᵥ ε - m) ⬝ᵥ (W * Wᵀ)⁻¹ *ᵥ (m + W *ᵥ ε - m) = ε ⬝ᵥ ε := by
      have hut : IsUnit (Wᵀ).det := by rw [Matrix.det_transpose]; exact hu
      rw [add_sub_cancel_left, Matrix.mul_inv_rev, Matrix.mulVec_mulVec, Matrix.mul_assoc,
        Matrix.nonsing_inv_mul _ hu, Matrix.mul_one, dotProduct_comm, dotProduct_mulVec,
        ← Matrix.mulVec_transpose, Matrix.mulVec_mulVec, Matrix.mul_nonsing_inv _ hut,
        Matrix.one_mulVec]
    unfold gaussLogDensity
    rw [hdet, hq, Real.exp_sub (_ - _) (_ * _)]
    have : Real.exp (1 / 2 * (2 * Real.log |W.det|)) = |W.det| := by
      rw [← mul_assoc, one_div, inv_mul_cancel₀ two_ne_zero, one_mul,
        Real.exp_log (abs_pos.mpr hW)]
    rw [this, mul_div_cancel₀ _ (abs_ne_zero.mpr hW)]
  simp only [Pi.mul_apply]
  have e1 : ∀ ε : ι → ℝ, (∏ i, gaussianPDF 0 1 (ε i)) * f (m + W *ᵥ ε) =
      ENNReal.ofReal |W.det| * (f (m + W *ᵥ ε) *
        ENNReal.ofReal (Real.exp (gaussLogDensity m (W * Wᵀ) (m + W *ᵥ ε)))) := by
    intro ε; rw [hlog]; ring
  simp only [e1]
  have hg' : Measurable fun ε : ι → ℝ => f (m + W *ᵥ ε) *
      ENNReal.ofReal (Real.exp (gaussLogDensity m (W * Wᵀ) (m + W *ᵥ ε))) :=
    hg.comp (measurable_mulVec W)
  rw [lintegral_const_mul _ hg', h3, ← mul_assoc,
    ← ENNReal.ofReal_mul (abs_nonneg _), ← abs_mul, mul_inv_cancel₀ hW, abs_one, ENNReal.ofReal_one,
    one_mul, ← h2]
  simp only [mul_comm]


end

end Cuthbert
