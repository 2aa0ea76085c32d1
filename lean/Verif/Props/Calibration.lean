import Verif.Props.Simulation
import Verif.Props.Uncertainty

/-!
# Property C89: the Kalman estimates are calibrated and optimal

On data simulated from the model, the error of the mean that the filter (smoother) returns has exactly the law
`N(0, P)`, where `P` is the covariance returned, and is independent of the data. Hence `P` is the true mean squared
error, credible regions have their nominal coverage, and no other estimator has a smaller mean squared error.
-/

namespace Cuthbert
namespace Generate
open MeasureTheory ProbabilityTheory Matrix Set Cuthbert.Kalman Spec
open scoped ENNReal NNReal

noncomputable section

variable {nx ny : ℕ}

/-- Linear functionals of a Gaussian vector are Gaussian. -/
theorem gauss_functional {ι κ : Type*} [Fintype ι] [Fintype κ] (m : ι → ℝ) (L : Matrix ι κ ℝ) (v : ι → ℝ) :
    (gauss m L).map (fun x => v ⬝ᵥ x) = gaussianReal (v ⬝ᵥ m) (v ⬝ᵥ (L * Lᵀ) *ᵥ v).toNNReal := by
  classical
  have hv : 0 ≤ v ⬝ᵥ (L * Lᵀ) *ᵥ v := by
    have : v ⬝ᵥ (L * Lᵀ) *ᵥ v = (Lᵀ *ᵥ v) ⬝ᵥ (Lᵀ *ᵥ v) := by
      rw [← Matrix.mulVec_mulVec, Matrix.dotProduct_mulVec, ← Matrix.mulVec_transpose]
    rw [this]
    exact Finset.sum_nonneg fun i _ => mul_self_nonneg _
  obtain ⟨s, hs⟩ : ∃ s, s = √(v ⬝ᵥ (L * Lᵀ) *ᵥ v) := ⟨_, rfl⟩
  have h1 := gauss_map_affine m L (Matrix.of fun (_ : Fin 1) => v) 0
  have h2 : gauss ((Matrix.of fun (_ : Fin 1) => v) *ᵥ m + 0) ((Matrix.of fun (_ : Fin 1) => v) * L) =
      gauss (fun _ : Fin 1 => v ⬝ᵥ m) (Matrix.of fun (_ _ : Fin 1) => s) := by
    have e : (Matrix.of fun (_ : Fin 1) => v) *ᵥ m + 0 = fun _ => v ⬝ᵥ m := by
      rw [add_zero]; rfl
    rw [e]
    refine gauss_eq_of_gram _ _ _ ?_
    ext i j
    have e1 : (Matrix.of fun (_ : Fin 1) => v) * L * ((Matrix.of fun (_ : Fin 1) => v) * L)ᵀ =
        (Matrix.of fun (_ : Fin 1) => v) * (L * Lᵀ) * (Matrix.of fun (_ : Fin 1) => v)ᵀ := by
      rw [Matrix.transpose_mul]; simp only [Matrix.mul_assoc]
    rw [e1]
    have e2 : ((Matrix.of fun (_ : Fin 1) => v) * (L * Lᵀ) * (Matrix.of fun (_ : Fin 1) => v)ᵀ) i j =
        v ⬝ᵥ (L * Lᵀ) *ᵥ v := by
      rw [Matrix.mul_assoc]; rfl
    rw [e2]
    simp [Matrix.mul_apply, hs, Real.mul_self_sqrt hv]
  rw [h2] at h1
  have h3 := congrArg (fun μ => μ.map (fun x : Fin 1 → ℝ => x 0)) h1
  have hmv : Measurable fun x : ι → ℝ => (Matrix.of fun (_ : Fin 1) => v) *ᵥ x + 0 :=
    (measurable_mulVec _).add measurable_const
  rw [Measure.map_map (measurable_pi_apply 0) hmv] at h3
  have e3 : ((fun x : Fin 1 → ℝ => x 0) ∘ fun x : ι → ℝ => (Matrix.of fun (_ : Fin 1) => v) *ᵥ x + 0) =
      fun x => v ⬝ᵥ x := by
    funext x; simp [Matrix.mulVec]
  rw [e3] at h3
  rw [h3, gauss, Measure.map_map (measurable_pi_apply 0) (measurable_affine _ _)]
  have e4 : ((fun x : Fin 1 → ℝ => x 0) ∘ fun ε : Fin 1 → ℝ => (fun _ : Fin 1 => v ⬝ᵥ m) +
      (Matrix.of fun (_ _ : Fin 1) => s) *ᵥ ε) = (fun z => (v ⬝ᵥ m) + z) ∘ (fun z => s * z) ∘ fun ε => ε 0 := by
    funext x; simp [Matrix.mulVec, dotProduct]
  rw [e4, ← Measure.map_map (by fun_prop) (by fun_prop), ← Measure.map_map (by fun_prop) (by fun_prop)]
  have e5 : (stdNormal (Fin 1)).map (fun ε => ε 0) = gaussianReal 0 1 :=
    (measurePreserving_eval (fun _ : Fin 1 => gaussianReal 0 1) 0).map_eq
  rw [e5, gaussianReal_map_const_mul, gaussianReal_map_const_add]
  congr 1
  · simp
  · ext
    rw [mul_one, Real.coe_toNNReal _ hv]
    show s ^ 2 = _
    rw [hs, Real.sq_sqrt hv]

/-- Mean squared distance of a linear functional from a number. -/
theorem gauss_sq_dist {ι κ : Type*} [Fintype ι] [Fintype κ] (m : ι → ℝ) (L : Matrix ι κ ℝ) (v : ι → ℝ) (c : ℝ) :
    ∫⁻ x, ENNReal.ofReal ((v ⬝ᵥ x - c) ^ 2) ∂gauss m L =
      ENNReal.ofReal (v ⬝ᵥ (L * Lᵀ) *ᵥ v + (v ⬝ᵥ m - c) ^ 2) := by
  have hm : Measurable fun x : ι → ℝ => v ⬝ᵥ x := by unfold dotProduct; fun_prop
  have hg : Measurable fun z : ℝ => ENNReal.ofReal ((z - c) ^ 2) := by fun_prop
  have h1 := lintegral_map (μ := gauss m L) hg hm
  rw [← h1, gauss_functional]
  have hv : 0 ≤ v ⬝ᵥ (L * Lᵀ) *ᵥ v := by
    have : v ⬝ᵥ (L * Lᵀ) *ᵥ v = (Lᵀ *ᵥ v) ⬝ᵥ (Lᵀ *ᵥ v) := by
      rw [← Matrix.mulVec_mulVec, Matrix.dotProduct_mulVec, ← Matrix.mulVec_transpose]
    rw [this]
    exact Finset.sum_nonneg fun i _ => mul_self_nonneg _
  obtain ⟨μ, hμ⟩ : ∃ μ, μ = gaussianReal (v ⬝ᵥ m) (v ⬝ᵥ (L * Lᵀ) *ᵥ v).toNNReal := ⟨_, rfl⟩
  have hL2 : MemLp (fun z : ℝ => z) 2 μ := by rw [hμ]; exact memLp_id_gaussianReal 2
  have hpr : IsProbabilityMeasure μ := by rw [hμ]; infer_instance
  have hmean : ∫ z, z ∂μ = v ⬝ᵥ m := by rw [hμ]; exact integral_id_gaussianReal
  have hvar : Var[fun z => z; μ] = v ⬝ᵥ (L * Lᵀ) *ᵥ v := by
    rw [hμ]
    refine variance_fun_id_gaussianReal.trans ?_
    exact Real.coe_toNNReal _ hv
  have hint : Integrable (fun z : ℝ => z) μ := hL2.integrable (by norm_num)
  have hint2 : Integrable (fun z : ℝ => (z - c) ^ 2) μ := by
    have := (hL2.sub (memLp_const c)).integrable_sq
    exact this
  rw [← hμ, ← ofReal_integral_eq_lintegral_ofReal hint2 (ae_of_all _ fun z => sq_nonneg _)]
  congr 1
  have h2 := variance_eq_sub hL2
  have hsq : Integrable (fun z : ℝ => z ^ 2) μ := hL2.integrable_sq
  have h3 : ∫ z, (z - c) ^ 2 ∂μ = ∫ z, z ^ 2 ∂μ - 2 * c * (v ⬝ᵥ m) + c ^ 2 := by
    have : (fun z : ℝ => (z - c) ^ 2) = fun z => z ^ 2 - 2 * c * z + c ^ 2 := by funext z; ring
    have hs : Integrable (fun z : ℝ => z ^ 2 - 2 * c * z) μ := hsq.sub (hint.const_mul _)
    rw [this, integral_add hs (integrable_const _), integral_sub hsq (hint.const_mul _), integral_const_mul, hmean]
    simp
  have h4 : ∫ z, z ^ 2 ∂μ = v ⬝ᵥ (L * Lᵀ) *ᵥ v + (v ⬝ᵥ m) ^ 2 := by
    rw [← hvar, h2]
    simp only [Pi.pow_apply]
    rw [hmean]; ring
  rw [h3, h4]; ring

theorem gauss_coord {ι κ : Type*} [Fintype ι] [Fintype κ] [DecidableEq ι] (m : ι → ℝ) (L : Matrix ι κ ℝ) (i : ι) :
    m i = (∫⁻ x, ENNReal.ofReal (x i) ∂gauss m L).toReal - (∫⁻ x, ENNReal.ofReal (-x i) ∂gauss m L).toReal := by
  have hf := gauss_functional m L (Pi.single i 1)
  simp only [single_one_dotProduct] at hf
  have hi : Integrable (fun z : ℝ => z) ((gauss m L).map fun x => x i) := by
    rw [hf]; exact (memLp_id_gaussianReal 1).integrable le_rfl
  have hi' : Integrable (fun x : ι → ℝ => x i) (gauss m L) := hi.comp_measurable (measurable_pi_apply i)
  rw [← integral_eq_lintegral_pos_part_sub_lintegral_neg_part hi']
  have h1 := integral_map (μ := gauss m L) (measurable_pi_apply i).aemeasurable (f := fun z : ℝ => z)
    (by fun_prop)
  rw [← h1, hf]
  exact integral_id_gaussianReal.symm

theorem gauss_centred {ι κ : Type*} [Fintype ι] [Fintype κ] (m : ι → ℝ) (L : Matrix ι κ ℝ) {φ : (ι → ℝ) → ℝ≥0∞}
    (hφ : Measurable φ) : ∫⁻ x, φ (x - m) ∂gauss m L = ∫⁻ x, φ x ∂gauss 0 L := by
  have h : Measurable fun x => φ (x - m) := hφ.comp (measurable_id.sub measurable_const)
  rw [lintegral_gauss m L h, lintegral_gauss 0 L hφ]
  simp

section general
variable {T : ℕ} (m0 : Fin nx → ℝ) (cholP0 : Matrix (Fin nx) (Fin nx) ℝ)
  (θ : Fin T → Par nx ny) (hR : ∀ t, (θ t).cholR.det ≠ 0) (t : ℕ)
  (m : (Fin T → Fin ny → ℝ) → Fin nx → ℝ) (L : (Fin T → Fin ny → ℝ) → Matrix (Fin nx) (Fin nx) ℝ)
  (l : (Fin T → Fin ny → ℝ) → ℝ)
  (h : ∀ y (φ : (Fin nx → ℝ) → ℝ≥0∞), Measurable φ → jointExp m0 cholP0 (stepsOf θ y) (fun p => φ (p t)) =
    ENNReal.ofReal (Real.exp (l y)) * ∫⁻ x, φ x ∂gauss (m y) (L y))
include h

omit hR in
theorem measurable_mean_of_joint : Measurable m := by
  have hone : ∀ y, jointExp m0 cholP0 (stepsOf θ y) (fun _ => 1) = ENNReal.ofReal (Real.exp (l y)) := fun y => by
    have := h y (fun _ => 1) measurable_const
    rw [this, lintegral_const, measure_univ, mul_one, mul_one]
  have hpos : ∀ y, ENNReal.ofReal (Real.exp (l y)) ≠ 0 := fun y => by simpa using Real.exp_pos (l y)
  have hm1 : Measurable fun y => jointExp m0 cholP0 (stepsOf θ y) fun _ => 1 :=
    measurable_jointExp m0 cholP0 θ (f := fun _ => 1) measurable_const
  have key : ∀ φ : (Fin nx → ℝ) → ℝ≥0∞, Measurable φ → Measurable fun y => ∫⁻ x, φ x ∂gauss (m y) (L y) := by
    intro φ hφ
    have hN : (fun y => ∫⁻ x, φ x ∂gauss (m y) (L y)) = fun y =>
        jointExp m0 cholP0 (stepsOf θ y) (fun p => φ (p t)) / jointExp m0 cholP0 (stepsOf θ y) fun _ => 1 := by
      funext y
      rw [h y φ hφ, hone, mul_comm, ENNReal.mul_div_cancel_right (hpos y) ENNReal.ofReal_ne_top]
    have hmφ : Measurable fun y => jointExp m0 cholP0 (stepsOf θ y) fun p => φ (p t) :=
      measurable_jointExp m0 cholP0 θ (f := fun q => φ (q.1 t)) (hφ.comp ((measurable_pi_apply t).comp measurable_fst))
    rw [hN]; exact hmφ.div hm1
  refine measurable_pi_lambda _ fun i => ?_
  have e : (fun y => m y i) = fun y => (∫⁻ x, ENNReal.ofReal (x i) ∂gauss (m y) (L y)).toReal -
      (∫⁻ x, ENNReal.ofReal (-x i) ∂gauss (m y) (L y)).toReal := funext fun y => gauss_coord (m y) (L y) i
  rw [e]
  exact (key (fun x => ENNReal.ofReal (x i)) (by fun_prop)).ennreal_toReal.sub
    (key (fun x => ENNReal.ofReal (-x i)) (by fun_prop)).ennreal_toReal

include hR

theorem simExp_of_joint {f : (Fin nx → ℝ) → (Fin T → Fin ny → ℝ) → ℝ≥0∞}
    (hf : Measurable fun q : (Fin nx → ℝ) × (Fin T → Fin ny → ℝ) => f q.1 q.2) :
    simExp m0 cholP0 θ (fun p y => f (p t) y) =
      ∫⁻ y, ENNReal.ofReal (Real.exp (l y)) * ∫⁻ x, f x y ∂gauss (m y) (L y) := by
  have hm : Measurable fun q : (ℕ → Fin nx → ℝ) × (Fin T → Fin ny → ℝ) => f (q.1 t) q.2 :=
    hf.comp (g := fun q : (Fin nx → ℝ) × (Fin T → Fin ny → ℝ) => f q.1 q.2)
      (f := fun q : (ℕ → Fin nx → ℝ) × (Fin T → Fin ny → ℝ) => (q.1 t, q.2))
      (((measurable_pi_apply t).comp measurable_fst).prodMk measurable_snd)
  rw [simExp, simulation_law m0 cholP0 θ hR (f := fun q => f (q.1 t) q.2) hm]
  exact lintegral_congr fun y => h y (fun x => f x y) (hf.comp (measurable_id.prodMk measurable_const))

/-- The claims of C89 from the exact laws. -/
theorem calibrated_of_joint (hL : ∀ y y', L y * (L y)ᵀ = L y' * (L y')ᵀ) :
    (∀ (y₀ : Fin T → Fin ny → ℝ) (φ : (Fin nx → ℝ) → ℝ≥0∞) (ψ : (Fin T → Fin ny → ℝ) → ℝ≥0∞),
      Measurable φ → Measurable ψ → simExp m0 cholP0 θ (fun p y => φ (p t - m y) * ψ y) =
        (∫⁻ x, φ x ∂gauss 0 (L y₀)) * simExp m0 cholP0 θ (fun _ y => ψ y)) ∧
    (∀ (y₀ : Fin T → Fin ny → ℝ) (v : Fin nx → ℝ),
      simExp m0 cholP0 θ (fun p y => ENNReal.ofReal ((v ⬝ᵥ p t - v ⬝ᵥ m y) ^ 2)) =
        ENNReal.ofReal (v ⬝ᵥ (L y₀ * (L y₀)ᵀ) *ᵥ v)) ∧
    ∀ (v : Fin nx → ℝ) (g : (Fin T → Fin ny → ℝ) → ℝ), Measurable g →
      simExp m0 cholP0 θ (fun p y => ENNReal.ofReal ((v ⬝ᵥ p t - v ⬝ᵥ m y) ^ 2)) ≤
        simExp m0 cholP0 θ (fun p y => ENNReal.ofReal ((v ⬝ᵥ p t - g y) ^ 2)) := by
  have hmm := measurable_mean_of_joint m0 cholP0 θ t m L l h
  have hone : ∀ ψ : (Fin T → Fin ny → ℝ) → ℝ≥0∞, Measurable ψ → simExp m0 cholP0 θ (fun _ y => ψ y) =
      ∫⁻ y, ENNReal.ofReal (Real.exp (l y)) * ψ y := fun ψ hψ => by
    rw [simExp_of_joint m0 cholP0 θ hR t m L l h (f := fun _ y => ψ y) (hψ.comp measurable_snd)]
    simp
  have hdot : ∀ v : Fin nx → ℝ, Measurable fun x : Fin nx → ℝ => v ⬝ᵥ x := fun v => by
    unfold dotProduct; fun_prop
  refine ⟨fun y₀ φ ψ hφ hψ => ?_, fun y₀ v => ?_, fun v g hg => ?_⟩
  · have hf : Measurable fun q : (Fin nx → ℝ) × (Fin T → Fin ny → ℝ) => φ (q.1 - m q.2) * ψ q.2 :=
      (hφ.comp (measurable_fst.sub (hmm.comp measurable_snd))).mul (hψ.comp measurable_snd)
    have hφ' : ∀ y, Measurable fun x => φ (x - m y) := fun y => hφ.comp (measurable_id.sub measurable_const)
    rw [simExp_of_joint m0 cholP0 θ hR t m L l h (f := fun x y => φ (x - m y) * ψ y) hf]
    have e : ∀ y, ENNReal.ofReal (Real.exp (l y)) * ∫⁻ x, φ (x - m y) * ψ y ∂gauss (m y) (L y) =
        ENNReal.ofReal (Real.exp (l y)) * ((∫⁻ x, φ x ∂gauss 0 (L y₀)) * ψ y) := fun y => by
      rw [lintegral_mul_const _ (hφ' y), gauss_centred _ _ hφ, gauss_eq_of_gram 0 (L y) (L y₀) (hL y y₀)]
    simp only [e]
    rw [← hone (fun y => (∫⁻ x, φ x ∂gauss 0 (L y₀)) * ψ y) (measurable_const.mul hψ)]
    have hs : Measurable fun e : (Fin nx → ℝ) × (Fin T → (Fin nx → ℝ) × (Fin ny → ℝ)) =>
        simulate T θ (m0 + cholP0 *ᵥ e.1) e.2 :=
      (measurable_simulate θ ((measurable_affine m0 cholP0).comp measurable_fst) measurable_snd).2
    unfold simExp
    exact lintegral_const_mul _ (hψ.comp hs)
  · have hf : Measurable fun q : (Fin nx → ℝ) × (Fin T → Fin ny → ℝ) =>
        ENNReal.ofReal ((v ⬝ᵥ q.1 - v ⬝ᵥ m q.2) ^ 2) :=
      ((((hdot v).comp measurable_fst).sub ((hdot v).comp (hmm.comp measurable_snd))).pow_const 2).ennreal_ofReal
    rw [simExp_of_joint m0 cholP0 θ hR t m L l h (f := fun x y => ENNReal.ofReal ((v ⬝ᵥ x - v ⬝ᵥ m y) ^ 2)) hf]
    have e : ∀ y, ENNReal.ofReal (Real.exp (l y)) * ∫⁻ x, ENNReal.ofReal ((v ⬝ᵥ x - v ⬝ᵥ m y) ^ 2) ∂gauss (m y) (L y) =
        ENNReal.ofReal (Real.exp (l y)) * ENNReal.ofReal (v ⬝ᵥ (L y₀ * (L y₀)ᵀ) *ᵥ v) := fun y => by
      rw [gauss_sq_dist, hL y y₀]; simp
    simp only [e]
    rw [← hone _ measurable_const]
    simp [simExp]
  · have hf : ∀ g : (Fin T → Fin ny → ℝ) → ℝ, Measurable g →
        Measurable fun q : (Fin nx → ℝ) × (Fin T → Fin ny → ℝ) => ENNReal.ofReal ((v ⬝ᵥ q.1 - g q.2) ^ 2) := fun g hg =>
      ((((hdot v).comp measurable_fst).sub (hg.comp measurable_snd)).pow_const 2).ennreal_ofReal
    rw [simExp_of_joint m0 cholP0 θ hR t m L l h (f := fun x y => ENNReal.ofReal ((v ⬝ᵥ x - v ⬝ᵥ m y) ^ 2))
        (hf _ ((hdot v).comp hmm)),
      simExp_of_joint m0 cholP0 θ hR t m L l h (f := fun x y => ENNReal.ofReal ((v ⬝ᵥ x - g y) ^ 2)) (hf g hg)]
    refine lintegral_mono fun y => mul_le_mul_right ?_ _
    rw [gauss_sq_dist, gauss_sq_dist]
    refine ENNReal.ofReal_le_ofReal ?_
    nlinarith [sq_nonneg (v ⬝ᵥ m y - g y)]

end general

/-- The covariances of two data sets of the same model. -/
theorem noisier_stepsOf {T : ℕ} (θ : Fin T → Par nx ny) (y y' : Fin T → Fin ny → ℝ) :
    List.Forall₂ Noisier (stepsOf θ y) (stepsOf θ y') := by
  unfold stepsOf
  rw [List.forall₂_iff_get]
  refine ⟨by simp, fun i h1 h2 => ?_⟩
  simp only [List.get_eq_getElem, List.getElem_ofFn]
  exact ⟨rfl, rfl, Below.refl _, Below.refl _, fun _ _ => rfl⟩

/-- **C89** (filter). In both modes: the covariance `L Lᵀ` that the filter returns is the same for all data `y`; on
simulated data the error `x_T - m(y)` of its mean has the law `N(0, L Lᵀ)` and is independent of the data; `L Lᵀ` is
the mean squared error; and no other function of the data estimates any linear functional of `x_T` with a smaller mean
squared error. -/
theorem kalman_filter_calibrated {K : Type} (qr : QR) (rng : Prng K) (parallel : Bool) (key : Option K) {T : ℕ}
    (m0 : Fin nx → ℝ) (cholP0 : Matrix (Fin nx) (Fin nx) ℝ) (θ : Fin T → Par nx ny)
    (hR : ∀ t, (θ t).cholR.det ≠ 0) (u₀ : Step nx ny) :
    ∃ (m : (Fin T → Fin ny → ℝ) → Fin nx → ℝ) (L : (Fin T → Fin ny → ℝ) → Matrix (Fin nx) (Fin nx) ℝ),
      (∀ y, ∃ states s, (filter rng (buildFilter qr (dataCallbacks m0 cholP0)) (u₀ :: stepsOf θ y) parallel
        key).result = .ok states ∧ states[T]? = some s ∧ s.mean = some (m y) ∧ s.cholCov = some (L y)) ∧
      (∀ y y', L y * (L y)ᵀ = L y' * (L y')ᵀ) ∧
      (∀ (y₀ : Fin T → Fin ny → ℝ) (φ : (Fin nx → ℝ) → ℝ≥0∞) (ψ : (Fin T → Fin ny → ℝ) → ℝ≥0∞),
        Measurable φ → Measurable ψ → simExp m0 cholP0 θ (fun p y => φ (p T - m y) * ψ y) =
          (∫⁻ x, φ x ∂gauss 0 (L y₀)) * simExp m0 cholP0 θ (fun _ y => ψ y)) ∧
      (∀ (y₀ : Fin T → Fin ny → ℝ) (v : Fin nx → ℝ),
        simExp m0 cholP0 θ (fun p y => ENNReal.ofReal ((v ⬝ᵥ p T - v ⬝ᵥ m y) ^ 2)) =
          ENNReal.ofReal (v ⬝ᵥ (L y₀ * (L y₀)ᵀ) *ᵥ v)) ∧
      ∀ (v : Fin nx → ℝ) (g : (Fin T → Fin ny → ℝ) → ℝ), Measurable g →
        simExp m0 cholP0 θ (fun p y => ENNReal.ofReal ((v ⬝ᵥ p T - v ⬝ᵥ m y) ^ 2)) ≤
          simExp m0 cholP0 θ (fun p y => ENNReal.ofReal ((v ⬝ᵥ p T - g y) ^ 2)) := by
  have hlen : ∀ y, (stepsOf θ y).length = T := fun y => by simp [stepsOf]
  have hex : ∀ y, ∃ m L l, (∃ states s, (filter rng (buildFilter qr (dataCallbacks m0 cholP0))
      (u₀ :: stepsOf θ y) parallel key).result = .ok states ∧ states[T]? = some s ∧ s.mean = some m ∧
        s.cholCov = some L) ∧ ∀ φ : (Fin nx → ℝ) → ℝ≥0∞, Measurable φ →
          jointExp m0 cholP0 (stepsOf θ y) (fun p => φ (p T)) =
            ENNReal.ofReal (Real.exp l) * ∫⁻ x, φ x ∂gauss m L := fun y => by
    obtain ⟨states, h1, -, h3⟩ := kalman_filter_exact qr rng (dataCallbacks m0 cholP0) u₀ (stepsOf θ y) parallel key
      (stepsOf_R θ hR y)
    obtain ⟨s, m, L, l, hs, hm, hL, hj, -⟩ := h3 T (hlen y).ge
    refine ⟨m, L, l, ⟨states, s, h1, hs, hm, hL⟩, fun φ hφ => ?_⟩
    have := hj φ hφ
    rwa [List.take_of_length_le (hlen y).le, stepOf_data, List.map_id] at this
  choose m L l h1 h2 using hex
  have hle : ∀ y y', Below (L y * (L y)ᵀ) (L y' * (L y')ᵀ) := fun y y' => by
    obtain ⟨states, s, a1, a2, -, a4⟩ := h1 y
    obtain ⟨states', s', b1, b2, -, b4⟩ := h1 y'
    obtain ⟨L₁, L₂, c1, c2, c3⟩ := filter_covariance_monotone qr qr rng rng (dataCallbacks m0 cholP0)
      (dataCallbacks m0 cholP0) parallel parallel key key (Below.refl _)
      (by simpa [stepOf_data] using noisier_stepsOf θ y y') (stepsOf_R θ hR y) a1 b1 T s s' a2 b2
    rw [a4, Option.some.injEq] at c1
    rw [b4, Option.some.injEq] at c2
    rwa [c1, c2]
  have hL : ∀ y y', L y * (L y)ᵀ = L y' * (L y')ᵀ := fun y y' => (hle y y').antisymm (hle y' y)
  exact ⟨m, L, h1, hL, calibrated_of_joint m0 cholP0 θ hR T m L l h2 hL⟩

/-- **C89** (smoother). The same for the mean and covariance that the smoother returns at any time `t ≤ T`, given all
the data, in every combination of modes. -/
theorem kalman_smoother_calibrated {K : Type} (qr : QR) (rng rng' : Prng K) (parallel parallel' : Bool)
    (key key' : Option K) {T : ℕ} (hT : 0 < T) (m0 : Fin nx → ℝ) (cholP0 : Matrix (Fin nx) (Fin nx) ℝ)
    (θ : Fin T → Par nx ny) (hQ : ∀ t, (θ t).cholQ.det ≠ 0) (hR : ∀ t, (θ t).cholR.det ≠ 0) (u₀ : Step nx ny)
    (opts : SmootherOpts nx (Step nx ny)) (t : ℕ) (ht : t ≤ T) :
    ∃ (m : (Fin T → Fin ny → ℝ) → Fin nx → ℝ) (L : (Fin T → Fin ny → ℝ) → Matrix (Fin nx) (Fin nx) ℝ),
      (∀ y, ∃ fs states s, (filter rng (buildFilter qr (dataCallbacks m0 cholP0)) (u₀ :: stepsOf θ y) parallel
          key).result = .ok fs ∧
        (smoother rng' FilterState.modelInputs (fun u => .ok (opts.dummy u))
          (buildSmoother qr (dataCallbacks (ny := ny) m0 cholP0).getDynamics opts) fs none parallel' key').result =
            .ok states ∧
        states[t]? = some s ∧ s.mean = some (m y) ∧ s.cholCov = some (L y)) ∧
      (∀ y y', L y * (L y)ᵀ = L y' * (L y')ᵀ) ∧
      (∀ (y₀ : Fin T → Fin ny → ℝ) (φ : (Fin nx → ℝ) → ℝ≥0∞) (ψ : (Fin T → Fin ny → ℝ) → ℝ≥0∞),
        Measurable φ → Measurable ψ → simExp m0 cholP0 θ (fun p y => φ (p t - m y) * ψ y) =
          (∫⁻ x, φ x ∂gauss 0 (L y₀)) * simExp m0 cholP0 θ (fun _ y => ψ y)) ∧
      (∀ (y₀ : Fin T → Fin ny → ℝ) (v : Fin nx → ℝ),
        simExp m0 cholP0 θ (fun p y => ENNReal.ofReal ((v ⬝ᵥ p t - v ⬝ᵥ m y) ^ 2)) =
          ENNReal.ofReal (v ⬝ᵥ (L y₀ * (L y₀)ᵀ) *ᵥ v)) ∧
      ∀ (v : Fin nx → ℝ) (g : (Fin T → Fin ny → ℝ) → ℝ), Measurable g →
        simExp m0 cholP0 θ (fun p y => ENNReal.ofReal ((v ⬝ᵥ p t - v ⬝ᵥ m y) ^ 2)) ≤
          simExp m0 cholP0 θ (fun p y => ENNReal.ofReal ((v ⬝ᵥ p t - g y) ^ 2)) := by
  have hlen : ∀ y, (stepsOf θ y).length = T := fun y => by simp [stepsOf]
  have hne : ∀ y, stepsOf θ y ≠ [] := fun y h => by have := hlen y; rw [h] at this; simp at this; omega
  have hP : ∀ y (fs : List (FilterState nx (Step nx ny))) (t : ℕ) (s : FilterState nx (Step nx ny)) L u,
      fs[t]? = some s → s.cholCov = some L → (stepsOf θ y)[t]? = some u →
      ((stepOf (dataCallbacks m0 cholP0) u).F * (L * Lᵀ) * ((stepOf (dataCallbacks m0 cholP0) u).F)ᵀ +
        (stepOf (dataCallbacks m0 cholP0) u).cholQ * ((stepOf (dataCallbacks m0 cholP0) u).cholQ)ᵀ).det ≠ 0 := by
    intro y fs t s L u _ _ hu
    have hu' := List.mem_of_getElem? hu
    rw [stepsOf, List.mem_ofFn] at hu'
    obtain ⟨t', rfl⟩ := hu'
    rw [add_comm]
    refine (isGram_of _).det_add_ne_zero ?_ ((isGram_of L).conj _)
    rw [Matrix.det_mul, Matrix.det_transpose]
    exact mul_ne_zero (hQ t') (hQ t')
  have hex : ∀ y, ∃ m L l, (∃ fs states s, (filter rng (buildFilter qr (dataCallbacks m0 cholP0))
      (u₀ :: stepsOf θ y) parallel key).result = .ok fs ∧
        (smoother rng' FilterState.modelInputs (fun u => .ok (opts.dummy u))
          (buildSmoother qr (dataCallbacks (ny := ny) m0 cholP0).getDynamics opts) fs none parallel' key').result =
            .ok states ∧ states[t]? = some s ∧ s.mean = some m ∧ s.cholCov = some L) ∧
        ∀ φ : (Fin nx → ℝ) → ℝ≥0∞, Measurable φ →
          jointExp m0 cholP0 (stepsOf θ y) (fun p => φ (p t)) =
            ENNReal.ofReal (Real.exp l) * ∫⁻ x, φ x ∂gauss m L := fun y => by
    obtain ⟨fs, h1, -, -⟩ := kalman_filter_exact qr rng (dataCallbacks m0 cholP0) u₀ (stepsOf θ y) parallel key
      (stepsOf_R θ hR y)
    obtain ⟨states, l, h2, -, h3, -⟩ := kalman_smoother_exact qr rng rng' (dataCallbacks m0 cholP0) u₀
      (stepsOf θ y) (hne y) parallel parallel' key key' opts (stepsOf_R θ hR y) fs h1 (hP y fs) none (Or.inl rfl)
    obtain ⟨s, m, L, hs, hm, hL, hj⟩ := h3 t (by rw [hlen]; exact ht)
    refine ⟨m, L, l, ⟨fs, states, s, h1, h2, hs, hm, hL⟩, fun φ hφ => ?_⟩
    have := hj φ hφ
    rwa [stepOf_data, List.map_id] at this
  choose m L l h1 h2 using hex
  have hle : ∀ y y', Below (L y * (L y)ᵀ) (L y' * (L y')ᵀ) := fun y y' => by
    obtain ⟨fs, states, s, a0, a1, a2, -, a4⟩ := h1 y
    obtain ⟨fs', states', s', b0, b1, b2, -, b4⟩ := h1 y'
    obtain ⟨L₁, L₂, c1, c2, c3⟩ := smoother_covariance_monotone qr qr rng rng' rng rng' (dataCallbacks m0 cholP0)
      (dataCallbacks m0 cholP0) (hne y) parallel parallel' parallel parallel' key key' key key' opts opts (Below.refl _)
      (by simpa [stepOf_data] using noisier_stepsOf θ y y') (stepsOf_R θ hR y) a0 b0 (hP y fs)
      a1 b1 t s s' a2 b2
    rw [a4, Option.some.injEq] at c1
    rw [b4, Option.some.injEq] at c2
    rwa [c1, c2]
  have hL : ∀ y y', L y * (L y)ᵀ = L y' * (L y')ᵀ := fun y y' => (hle y y').antisymm (hle y' y)
  exact ⟨m, L, h1, hL, calibrated_of_joint m0 cholP0 θ hR t m L l h2 hL⟩

/-- A two-dimensional model of which one component is observed meets the hypotheses of both theorems. -/
example : ∃ θ : Fin 3 → Par 2 1, (∀ t, (θ t).cholQ.det ≠ 0) ∧ (∀ t, (θ t).cholR.det ≠ 0) ∧ (θ 0).F ≠ 1 :=
  ⟨fun _ => ⟨!![1, 1; 0, 1], 0, 1, !![1, 0], 0, 1⟩, by simp, by simp, fun h => by
    have := congrFun (congrFun h 0) 1
    simp at this⟩

end

end Generate
end Cuthbert
