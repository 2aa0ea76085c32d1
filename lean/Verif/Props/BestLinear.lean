import Verif.Spec.SecondOrder
import Verif.Lemmas.SecondOrder
import Verif.Props.KalmanForgetting
import Verif.Props.Calibration
import Mathlib.Probability.Distributions.Uniform
import Mathlib.Probability.ProbabilityMassFunction.Integrals

/-!
# C113: without Gaussian assumptions, Kalman filter and smoother are the best linear estimators

For any process whose initial state and noises are uncorrelated and have the means and covariances of the model, the
means that filter and smoother return are unbiased, the covariance they return is the covariance of the error, and no
affine function of the data has a smaller mean squared error.
-/

namespace Cuthbert.Kalman
open MeasureTheory Matrix Cuthbert.Spec Cuthbert.Generate Cuthbert.SecondOrder

noncomputable section

set_option linter.unusedSectionVars false

variable {Ω : Type*} [MeasurableSpace Ω] {nx ny : ℕ}

/-! ### Square-integrable functions -/

/-- Square-integrable functions. -/
def SqInt (μ : Measure Ω) : Submodule ℝ (Ω → ℝ) where
  carrier := {f | MemLp f 2 μ}
  add_mem' ha hb := MemLp.add ha hb
  zero_mem' := MemLp.zero
  smul_mem' c _ hf := MemLp.const_smul hf c

theorem SqInt.integrable {μ : Measure Ω} (f g : SqInt μ) : Integrable (fun ω => f.1 ω * g.1 ω) μ :=
  MemLp.integrable_mul f.2 g.2

/-- The expectation of the product. -/
def corr (μ : Measure Ω) : SqInt μ →ₗ[ℝ] SqInt μ →ₗ[ℝ] ℝ :=
  LinearMap.mk₂ ℝ (fun f g => ∫ ω, f.1 ω * g.1 ω ∂μ)
    (fun f f' g => by
      rw [← integral_add (SqInt.integrable f g) (SqInt.integrable f' g)]
      exact integral_congr_ae (.of_forall fun ω => add_mul _ _ _))
    (fun c f g => by
      rw [smul_eq_mul, ← integral_const_mul]
      exact integral_congr_ae (.of_forall fun ω => mul_assoc _ _ _))
    (fun f g g' => by
      rw [← integral_add (SqInt.integrable f g) (SqInt.integrable f g')]
      exact integral_congr_ae (.of_forall fun ω => mul_add _ _ _))
    (fun c f g => by
      rw [smul_eq_mul, ← integral_const_mul]
      exact integral_congr_ae (.of_forall fun ω => mul_left_comm _ _ _))

theorem corr_apply (μ : Measure Ω) (f g : SqInt μ) : corr μ f g = ∫ ω, f.1 ω * g.1 ω ∂μ := rfl

theorem corr_symm (μ : Measure Ω) (f g : SqInt μ) : corr μ f g = corr μ g f := by
  simp only [corr_apply, mul_comm]

theorem corr_nonneg (μ : Measure Ω) (f : SqInt μ) : 0 ≤ corr μ f f :=
  integral_nonneg fun ω => mul_self_nonneg (f.1 ω)

/-- The constant one. -/
def oneSq (μ : Measure Ω) [IsProbabilityMeasure μ] : SqInt μ := ⟨fun _ => 1, memLp_const 1⟩

/-- The value of a vector of functions. -/
def ev {μ : Measure Ω} {ι : Type*} (v : ι → SqInt μ) (ω : Ω) : ι → ℝ := fun i => (v i).1 ω

section
variable {μ : Measure Ω} {ι κ : Type*} [Fintype ι] [Fintype κ]

theorem ev_act (A : Matrix ι κ ℝ) (v : κ → SqInt μ) (ω : Ω) : ev (act A v) ω = A *ᵥ ev v ω := by
  funext i
  have : ((act A v i : SqInt μ) : Ω → ℝ) = ∑ j, A i j • (v j : Ω → ℝ) := by
    simp only [act, AddSubmonoidClass.coe_finsetSum, Submodule.coe_smul]
  change ((act A v i : SqInt μ) : Ω → ℝ) ω = _
  rw [this, Finset.sum_apply]
  rfl

theorem ev_add (v w : ι → SqInt μ) (ω : Ω) : ev (v + w) ω = ev v ω + ev w ω := rfl
theorem ev_sub (v w : ι → SqInt μ) (ω : Ω) : ev (v - w) ω = ev v ω - ev w ω := rfl
theorem ev_cst [IsProbabilityMeasure μ] (c : ι → ℝ) (ω : Ω) : ev (cst (oneSq μ) c) ω = c := by
  funext i
  exact mul_one (c i)

end

/-! ### The process -/

/-- The indices of the components that are seen. -/
abbrev Seen (seen : ℕ → Fin ny → Bool) (t : ℕ) : Type := {i : Fin ny // seen t i = true}

/-- Rows of a matrix for the components that are seen. -/
def seenRows {κ : Type*} (seen : ℕ → Fin ny → Bool) (t : ℕ) (H : Matrix (Fin ny) κ ℝ) : Matrix (Seen seen t) κ ℝ :=
  H.submatrix Subtype.val id

section
variable {μ : Measure Ω} [IsProbabilityMeasure μ] {T : ℕ} {m0 : Fin nx → ℝ} {cholP0 : Matrix (Fin nx) (Fin nx) ℝ}
  {θ : ℕ → Par nx ny} {x : ℕ → Ω → Fin nx → ℝ} {y : ℕ → Ω → Fin ny → ℝ}

/-- The process noise as square-integrable functions. -/
def qE (M : UncorrelatedModel μ T m0 cholP0 θ x y) (t : ℕ) : Fin nx → SqInt μ := fun i =>
  if h : t < T then ⟨fun ω => dynNoise θ x t ω i, M.dyn_sq t h i⟩ else 0

/-- The observation noise as square-integrable functions. -/
def rE (M : UncorrelatedModel μ T m0 cholP0 θ x y) (t : ℕ) : Fin ny → SqInt μ := fun i =>
  if h : t < T then ⟨fun ω => obsNoise θ x y t ω i, M.obs_sq t h i⟩ else 0

/-- The states as square-integrable functions. -/
def xE (M : UncorrelatedModel μ T m0 cholP0 θ x y) : ℕ → Fin nx → SqInt μ
  | 0 => fun i => ⟨fun ω => x 0 ω i, M.init_sq i⟩
  | t + 1 => act (θ t).F (xE M t) + cst (oneSq μ) (θ t).c + qE M t

/-- The components of the observations that are seen as square-integrable functions. -/
def zE (M : UncorrelatedModel μ T m0 cholP0 θ x y) (seen : ℕ → Fin ny → Bool) (t : ℕ) : Seen seen t → SqInt μ :=
  act (seenRows seen t (θ t).H) (xE M (t + 1)) + cst (oneSq μ) (fun i => (θ t).d i.1) + fun i => rE M t i.1

theorem ev_xE (M : UncorrelatedModel μ T m0 cholP0 θ x y) (ω : Ω) : ∀ t ≤ T, ev (xE M t) ω = x t ω
  | 0, _ => rfl
  | t + 1, ht => by
    have hq : ev (qE M t) ω = dynNoise θ x t ω := by
      funext i
      simp only [ev, qE, dif_pos (show t < T by omega)]
    rw [xE, ev_add, ev_add, ev_act, ev_cst, hq, ev_xE M ω t (by omega), dynNoise]
    abel

theorem ev_zE (M : UncorrelatedModel μ T m0 cholP0 θ x y) (seen : ℕ → Fin ny → Bool) (ω : Ω) {t : ℕ} (ht : t < T) :
    ev (zE M seen t) ω = fun i => y t ω i.1 := by
  have hr : (ev (fun i : Seen seen t => rE M t i.1) ω) = fun i => obsNoise θ x y t ω i.1 := by
    funext i
    simp only [ev, rE, dif_pos ht]
  rw [zE, ev_add, ev_add, ev_act, ev_cst, hr, ev_xE M ω (t + 1) ht]
  funext i
  simp only [Pi.add_apply, obsNoise, Pi.sub_apply, seenRows, Matrix.mulVec, Matrix.submatrix_apply, id]
  simp only [dotProduct]
  ring

/-- The process is a model in the space of square-integrable functions. -/
theorem modelE (M : UncorrelatedModel μ T m0 cholP0 θ x y) (seen : ℕ → Fin ny → Bool) :
    Model (corr μ) (oneSq μ) T m0 (cholP0 * cholP0ᵀ) (fun t => (θ t).F) (fun t => (θ t).cholQ * (θ t).cholQᵀ)
      (fun t => (θ t).c) (fun t => seenRows seen t (θ t).H) (fun t (i : Seen seen t) => (θ t).d i.1)
      (fun t => seenRows seen t (θ t).cholR * (seenRows seen t (θ t).cholR)ᵀ) (xE M) (zE M seen) (qE M)
      (fun t i => rE M t i.1) where
  symm := corr_symm μ
  dyn t _ := rfl
  obs t _ := rfl
  init_one i := by
    have h : ∀ ω, ((xE M 0 i - m0 i • oneSq μ : SqInt μ) : Ω → ℝ) ω * ((oneSq μ : SqInt μ) : Ω → ℝ) ω = x 0 ω i - m0 i := by
      intro ω
      change (x 0 ω i - m0 i * 1) * 1 = _
      ring
    rw [corr_apply]
    simp only [h]
    rw [integral_sub ((M.init_sq i).integrable one_le_two) (integrable_const _), M.init_mean]
    simp
  init_cov := by
    ext i j
    rw [← M.init_cov i j]
    refine integral_congr_ae (.of_forall fun ω => ?_)
    change (x 0 ω i - m0 i * 1) * (x 0 ω j - m0 j * 1) = _
    simp only [mul_one]
  q_cov t ht := by
    ext i j
    rw [← M.dyn_cov t ht i j]
    simp only [mom, Matrix.of_apply, corr_apply, qE, dif_pos ht]
  r_cov t ht := by
    ext i j
    have h : (seenRows seen t (θ t).cholR * (seenRows seen t (θ t).cholR)ᵀ) i j =
      ((θ t).cholR * (θ t).cholRᵀ) i.1 j.1 := rfl
    rw [h, ← M.obs_cov t ht i.1 j.1]
    simp only [mom, Matrix.of_apply, corr_apply, rE, dif_pos ht]
  q_one t ht i := by
    simp only [corr_apply, qE, dif_pos ht, oneSq, mul_one]
    exact M.dyn_mean t ht i
  r_one t ht i := by
    simp only [corr_apply, rE, dif_pos ht, oneSq, mul_one]
    exact M.obs_mean t ht i.1
  q_init t ht i j := by
    simp only [corr_apply, qE, dif_pos ht, xE]
    exact M.dyn_init t ht j i
  r_init t ht i j := by
    simp only [corr_apply, rE, dif_pos ht, xE]
    exact M.obs_init t ht j.1 i
  q_q t ht s hs hst i j := by
    simp only [corr_apply, qE, dif_pos ht, dif_pos hs]
    exact M.dyn_dyn t ht s hs hst j i
  r_r t ht s hs hst i j := by
    simp only [corr_apply, rE, dif_pos ht, dif_pos hs]
    exact M.obs_obs t ht s hs hst j.1 i.1
  q_r t ht s hs i j := by
    simp only [corr_apply, qE, rE, dif_pos ht, dif_pos hs]
    exact M.dyn_obs t ht s hs j i.1

end

/-! ### Runs -/

/-- The components that are seen are those that are observed. -/
def seenEquiv (seen : ℕ → Fin ny → Bool) (t : ℕ) (y : Fin ny → ℝ) :
    Seen seen t ≃ Obs (fun i => if seen t i then some (y i) else none) where
  toFun i := ⟨i.1, by simp [i.2]⟩
  invFun i := ⟨i.1, by
    have := i.2
    by_contra h
    simp [h] at this⟩
  left_inv _ := rfl
  right_inv _ := rfl

/-- A step with some components seen. -/
def seenStep (θ : ℕ → Par nx ny) (seen : ℕ → Fin ny → Bool) (t : ℕ) (y : Fin ny → ℝ) : Step nx ny :=
  ⟨(θ t).F, (θ t).c, (θ t).cholQ, (θ t).H, (θ t).d, (θ t).cholR, fun i => if seen t i then some (y i) else none⟩

theorem kfStep_seen (k : KF nx) (θ : ℕ → Par nx ny) (seen : ℕ → Fin ny → Bool) (t : ℕ) (y : Fin ny → ℝ) :
    (kfStep k (seenStep θ seen t y)).m = condMean ((θ t).F *ᵥ k.m + (θ t).c)
        ((θ t).F * k.P * (θ t).Fᵀ + (θ t).cholQ * (θ t).cholQᵀ) (seenRows seen t (θ t).H) (fun i => (θ t).d i.1)
        (seenRows seen t (θ t).cholR * (seenRows seen t (θ t).cholR)ᵀ) (fun i => y i.1) ∧
      (kfStep k (seenStep θ seen t y)).P = condCov ((θ t).F * k.P * (θ t).Fᵀ + (θ t).cholQ * (θ t).cholQᵀ)
        (seenRows seen t (θ t).H) (seenRows seen t (θ t).cholR * (seenRows seen t (θ t).cholR)ᵀ) := by
  have h1 := condMean_reindex (seenEquiv seen t y) ((θ t).F *ᵥ k.m + (θ t).c)
    ((θ t).F * k.P * (θ t).Fᵀ + (θ t).cholQ * (θ t).cholQᵀ) (obsH (seenStep θ seen t y).y (θ t).H)
    (obsV (seenStep θ seen t y).y (θ t).d) (seenStep θ seen t y).R (obsY (seenStep θ seen t y).y)
  have h2 := condCov_reindex (seenEquiv seen t y) ((θ t).F * k.P * (θ t).Fᵀ + (θ t).cholQ * (θ t).cholQᵀ)
    (obsH (seenStep θ seen t y).y (θ t).H) (seenStep θ seen t y).R
  refine ⟨Eq.trans h1.symm ?_, h2.symm⟩
  have hy : (obsY (seenStep θ seen t y).y ∘ seenEquiv seen t y) = fun i => y i.1 := by
    funext i
    simp [obsY, seenStep, seenEquiv, i.2]
  exact congrArg (condMean ((θ t).F *ᵥ k.m + (θ t).c) ((θ t).F * k.P * (θ t).Fᵀ + (θ t).cholQ * (θ t).cholQᵀ)
    (seenRows seen t (θ t).H) (fun i => (θ t).d i.1)
    (seenRows seen t (θ t).cholR * (seenRows seen t (θ t).cholR)ᵀ)) hy

/-- The covariances of the filter. -/
def covAt (cholP0 : Matrix (Fin nx) (Fin nx) ℝ) (θ : ℕ → Par nx ny) (seen : ℕ → Fin ny → Bool) :
    ℕ → Matrix (Fin nx) (Fin nx) ℝ
  | 0 => cholP0 * cholP0ᵀ
  | t + 1 => condCov ((θ t).F * covAt cholP0 θ seen t * (θ t).Fᵀ + (θ t).cholQ * (θ t).cholQᵀ)
      (seenRows seen t (θ t).H) (seenRows seen t (θ t).cholR * (seenRows seen t (θ t).cholR)ᵀ)

theorem seenSteps_get (θ : ℕ → Par nx ny) (seen : ℕ → Fin ny → Bool) {T : ℕ} (y : ℕ → Fin ny → ℝ) {t : ℕ} (ht : t < T) :
    (seenSteps θ seen T y)[t]? = some (seenStep θ seen t (y t)) := by
  rw [seenSteps, List.getElem?_map, List.getElem?_range ht]
  rfl

theorem seenSteps_length (θ : ℕ → Par nx ny) (seen : ℕ → Fin ny → Bool) (T : ℕ) (y : ℕ → Fin ny → ℝ) :
    (seenSteps θ seen T y).length = T := by simp [seenSteps]

theorem seenSteps_R {θ : ℕ → Par nx ny} {T : ℕ} (hR : ∀ t < T, (θ t).cholR.det ≠ 0) (seen : ℕ → Fin ny → Bool)
    (m0 : Fin nx → ℝ) (cholP0 : Matrix (Fin nx) (Fin nx) ℝ) (y : ℕ → Fin ny → ℝ) :
    ∀ u ∈ seenSteps θ seen T y, (stepOf (dataCallbacks m0 cholP0) u).R.det ≠ 0 := by
  intro u hu
  obtain ⟨t, ht, rfl⟩ := List.mem_map.mp hu
  refine obsR_det _ _ ?_
  have := hR t (List.mem_range.mp ht)
  change ((θ t).cholR * (θ t).cholRᵀ).det ≠ 0
  rw [Matrix.det_mul, Matrix.det_transpose]
  exact mul_ne_zero this this

section
variable {μ : Measure Ω} [IsProbabilityMeasure μ] {T : ℕ} {m0 : Fin nx → ℝ} {cholP0 : Matrix (Fin nx) (Fin nx) ℝ}
  {θ : ℕ → Par nx ny} {x : ℕ → Ω → Fin nx → ℝ} {y : ℕ → Ω → Fin ny → ℝ}

/-- The means of the filter as square-integrable functions. -/
def fE (M : UncorrelatedModel μ T m0 cholP0 θ x y) (seen : ℕ → Fin ny → Bool) : ℕ → Fin nx → SqInt μ :=
  fmean (oneSq μ) m0 (fun t => (θ t).F) (fun t => (θ t).cholQ * (θ t).cholQᵀ) (fun t => (θ t).c)
    (fun t => seenRows seen t (θ t).H) (fun t (i : Seen seen t) => (θ t).d i.1)
    (fun t => seenRows seen t (θ t).cholR * (seenRows seen t (θ t).cholR)ᵀ) (covAt cholP0 θ seen) (zE M seen)

theorem kfAt_seen (M : UncorrelatedModel μ T m0 cholP0 θ x y) (seen : ℕ → Fin ny → Bool) (u₀ : Step nx ny) (ω : Ω) :
    ∀ t ≤ T, (kfAt (dataCallbacks m0 cholP0) u₀ (seenSteps θ seen T fun t => y t ω) t).m = ev (fE M seen t) ω ∧
      (kfAt (dataCallbacks m0 cholP0) u₀ (seenSteps θ seen T fun t => y t ω) t).P = covAt cholP0 θ seen t
  | 0, _ => ⟨(ev_cst m0 ω).symm, rfl⟩
  | t + 1, ht => by
    obtain ⟨h1, h2⟩ := kfAt_seen M seen u₀ ω t (by omega)
    rw [kfAt_succ _ _ _ _ _ (seenSteps_get θ seen _ (show t < T by omega))]
    have he : stepOf (dataCallbacks m0 cholP0) (seenStep θ seen t (y t ω)) = seenStep θ seen t (y t ω) := rfl
    obtain ⟨h3, h4⟩ := kfStep_seen (kfAt (dataCallbacks m0 cholP0) u₀ (seenSteps θ seen T fun t => y t ω) t) θ seen t (y t ω)
    rw [he, h3, h4, h1, h2]
    refine ⟨?_, rfl⟩
    rw [fE, fmean]
    simp only [ev_add, ev_act, ev_sub, ev_cst, ev_zE M seen ω (show t < T by omega), condMean, Matrix.mulVec_mulVec, Matrix.mul_assoc]

theorem covAt_gram (M : UncorrelatedModel μ T m0 cholP0 θ x y) (seen : ℕ → Fin ny → Bool)
    (hR : ∀ t < T, (θ t).cholR.det ≠ 0) {t : ℕ} (ht : t ≤ T) : IsGram (covAt cholP0 θ seen t) := by
  have hne : Nonempty Ω := by
    by_contra h
    rw [not_nonempty_iff] at h
    have := measure_univ (μ := μ)
    rw [Set.univ_eq_empty_iff.2 h, measure_empty] at this
    exact zero_ne_one this
  obtain ⟨ω⟩ := hne
  have u₀ : Step nx ny := ⟨0, 0, 0, 0, 0, 0, fun _ => none⟩
  rw [← (kfAt_seen M seen u₀ ω t ht).2]
  exact kfAt_gram _ _ _ (seenSteps_R hR seen m0 cholP0 _) t

theorem innov_seen (M : UncorrelatedModel μ T m0 cholP0 θ x y) (seen : ℕ → Fin ny → Bool)
    (hR : ∀ t < T, (θ t).cholR.det ≠ 0) {t : ℕ} (ht : t < T) :
    (innovCov ((θ t).F * covAt cholP0 θ seen t * (θ t).Fᵀ + (θ t).cholQ * (θ t).cholQᵀ)
      (seenRows seen t (θ t).H) (seenRows seen t (θ t).cholR * (seenRows seen t (θ t).cholR)ᵀ)).det ≠ 0 := by
  have hRd : (seenRows seen t (θ t).cholR * (seenRows seen t (θ t).cholR)ᵀ).det ≠ 0 := by
    have h := seenSteps_R hR seen m0 cholP0 (fun _ _ => 0) _ (List.mem_of_getElem? (seenSteps_get θ seen (fun _ _ => 0) ht))
    have e : (seenRows seen t (θ t).cholR * (seenRows seen t (θ t).cholR)ᵀ) =
      ((stepOf (dataCallbacks m0 cholP0) (seenStep θ seen t fun _ => 0)).R).submatrix (seenEquiv seen t fun _ => 0)
        (seenEquiv seen t fun _ => 0) := rfl
    rw [e]
    exact (Matrix.det_submatrix_equiv_self (seenEquiv seen t fun _ => 0) _).trans_ne h
  rw [innovCov, add_comm]
  exact (isGram_of _).det_add_ne_zero hRd ((((covAt_gram M seen hR ht.le).conj _).add (isGram_of _)).conj _)

/-- Affine functions of the data that are seen are in its span. -/
theorem affine_mem (M : UncorrelatedModel μ T m0 cholP0 θ x y) (seen : ℕ → Fin ny → Bool) {t : ℕ} (ht : t ≤ T) (a₀ : ℝ)
    (a : ℕ → Fin ny → ℝ) : ∃ w ∈ SecondOrder.data (oneSq μ) (zE M seen) t, ∀ ω, w.1 ω = affineIn seen t a₀ a fun s => y s ω := by
  refine ⟨a₀ • oneSq μ + ∑ s ∈ Finset.range t, ∑ i, if h : seen s i = true then a s i • zE M seen s ⟨i, h⟩ else 0, ?_, ?_⟩
  · refine Submodule.add_mem _ (Submodule.smul_mem _ _ (one_mem_data _ _ _)) (Submodule.sum_mem _ fun s hs =>
      Submodule.sum_mem _ fun i _ => ?_)
    split_ifs with h
    · exact Submodule.smul_mem _ _ (mem_data _ _ (Finset.mem_range.mp hs) _)
    · exact Submodule.zero_mem _
  · intro ω
    simp only [Submodule.coe_add, Pi.add_apply, AddSubmonoidClass.coe_finsetSum, Finset.sum_apply, affineIn]
    congr 1
    · exact mul_one a₀
    · refine Finset.sum_congr rfl fun s hs => Finset.sum_congr rfl fun i _ => ?_
      have hs' : s < T := lt_of_lt_of_le (Finset.mem_range.mp hs) ht
      split_ifs with h
      · have := congrFun (ev_zE M seen ω hs') ⟨i, h⟩
        change a s i * ev (zE M seen s) ω ⟨i, h⟩ = _
        rw [this]
      · rfl

/-- What follows from an orthogonal error. -/
theorem optimal_of (M : UncorrelatedModel μ T m0 cholP0 θ x y) (seen : ℕ → Fin ny → Bool) {s t : ℕ} (hs : s ≤ T) (ht : t ≤ T)
    {N : Fin nx → SqInt μ} {V : Matrix (Fin nx) (Fin nx) ℝ} (h1 : ∀ i, N i ∈ SecondOrder.data (oneSq μ) (zE M seen) t)
    (h2 : mom (corr μ) (xE M s - N) (xE M s - N) = V)
    (h3 : SecondOrder.data (oneSq μ) (zE M seen) t ≤ orth (corr μ) (xE M s - N)) :
    (∀ i, ∫ ω, (x s ω i - ev N ω i) ∂μ = 0) ∧ (∀ i j, ∫ ω, (x s ω i - ev N ω i) * (x s ω j - ev N ω j) ∂μ = V i j) ∧
    ∀ v : Fin nx → ℝ, ∫ ω, (v ⬝ᵥ x s ω - v ⬝ᵥ ev N ω) ^ 2 ∂μ = v ⬝ᵥ V *ᵥ v ∧
      ∀ a₀ a, ∫ ω, (v ⬝ᵥ x s ω - v ⬝ᵥ ev N ω) ^ 2 ∂μ ≤
        ∫ ω, (v ⬝ᵥ x s ω - affineIn seen t a₀ a fun r => y r ω) ^ 2 ∂μ := by
  have hx : ∀ ω i, ((xE M s - N) i).1 ω = x s ω i - ev N ω i := fun ω i => by
    rw [← ev_xE M ω s hs]; rfl
  refine ⟨fun i => ?_, fun i j => ?_, fun v => ?_⟩
  · have := h3 (one_mem_data _ _ _) i
    rw [corr_apply] at this
    simpa only [hx, oneSq, mul_one] using this
  · rw [← h2]
    simp only [mom, Matrix.of_apply, corr_apply, hx]
  · have hsum : ∀ (w : Fin nx → SqInt μ) ω, ((∑ i, v i • w i : SqInt μ) : Ω → ℝ) ω = v ⬝ᵥ ev w ω := by
      intro w ω
      simp only [AddSubmonoidClass.coe_finsetSum, Finset.sum_apply]
      rfl
    have hsq : ∀ w : SqInt μ, corr μ (∑ i, v i • xE M s i - w) (∑ i, v i • xE M s i - w) =
        ∫ ω, (v ⬝ᵥ x s ω - w.1 ω) ^ 2 ∂μ := by
      intro w
      rw [corr_apply]
      refine integral_congr_ae (.of_forall fun ω => ?_)
      have e : (∑ i, v i • xE M s i - w : SqInt μ).1 ω = v ⬝ᵥ x s ω - w.1 ω := by
        rw [← ev_xE M ω s hs, ← hsum]; rfl
      simp only [e, pow_two]
    have hN : ∫ ω, (v ⬝ᵥ x s ω - v ⬝ᵥ ev N ω) ^ 2 ∂μ = v ⬝ᵥ V *ᵥ v := by
      have := (best (corr_symm μ) (corr_nonneg μ) h1 h3 v (one_mem_data _ _ _)).1
      rw [hsq, h2] at this
      rw [← this]
      simp only [hsum]
    refine ⟨hN, fun a₀ a => ?_⟩
    obtain ⟨w, hw, he⟩ := affine_mem M seen ht a₀ a
    have := (best (corr_symm μ) (corr_nonneg μ) h1 h3 v hw).2
    rw [hsq, h2] at this
    rw [hN]
    simpa only [he] using this

variable {K : Type}

/-- **C113** (filter). Let the process have the means and covariances of the model, Gaussian or not. The covariance `P`
that the filter returns at time `t` is the same for all data; the mean it returns is unbiased, `P` is the covariance of
its error, and no affine function of the data seen so far estimates any linear functional of the state with a smaller
mean squared error. -/
theorem filter_best_linear (qr : QR) (rng : Prng K) (parallel : Bool) (key : Option K)
    (M : UncorrelatedModel μ T m0 cholP0 θ x y) (hR : ∀ t < T, (θ t).cholR.det ≠ 0) (seen : ℕ → Fin ny → Bool)
    (u₀ : Step nx ny) (t : ℕ) (ht : t ≤ T) :
    ∃ (m : Ω → Fin nx → ℝ) (P : Matrix (Fin nx) (Fin nx) ℝ),
      (∀ ω, ∃ states s L, (filter rng (buildFilter qr (dataCallbacks m0 cholP0))
        (u₀ :: seenSteps θ seen T fun t => y t ω) parallel key).result = .ok states ∧ states[t]? = some s ∧
          s.mean = some (m ω) ∧ s.cholCov = some L ∧ L * Lᵀ = P) ∧
      (∀ i, ∫ ω, (x t ω i - m ω i) ∂μ = 0) ∧ (∀ i j, ∫ ω, (x t ω i - m ω i) * (x t ω j - m ω j) ∂μ = P i j) ∧
      ∀ v : Fin nx → ℝ, ∫ ω, (v ⬝ᵥ x t ω - v ⬝ᵥ m ω) ^ 2 ∂μ = v ⬝ᵥ P *ᵥ v ∧
        ∀ a₀ a, ∫ ω, (v ⬝ᵥ x t ω - v ⬝ᵥ m ω) ^ 2 ∂μ ≤
          ∫ ω, (v ⬝ᵥ x t ω - affineIn seen t a₀ a fun s => y s ω) ^ 2 ∂μ := by
  obtain ⟨h2, h3⟩ := (modelE M seen).filter (covAt cholP0 θ seen) rfl (fun _ _ => rfl)
    (fun t ht => innov_seen M seen hR ht) t ht
  refine ⟨fun ω => ev (fE M seen t) ω, covAt cholP0 θ seen t, fun ω => ?_,
    optimal_of M seen ht ht (fmean_mem _ t) h2 h3⟩
  have hR' := seenSteps_R hR seen m0 cholP0 fun t => y t ω
  obtain ⟨states, h4, h5, -⟩ := kalman_filter_exact qr rng (dataCallbacks m0 cholP0) u₀
    (seenSteps θ seen T fun t => y t ω) parallel key hR'
  rw [seenSteps_length] at h5
  have h6 : states[t]? = some (states[t]'(by omega)) := List.getElem?_eq_getElem _
  obtain ⟨-, h7, L, h8, h9⟩ := filter_mean_cov qr rng _ u₀ _ parallel key hR' h4 h6
  obtain ⟨e1, e2⟩ := kfAt_seen M seen u₀ ω t ht
  exact ⟨states, _, L, h4, h6, h7.trans (congrArg some e1), h8, h9.trans e2⟩

/-! ### The smoother -/

theorem predict_seen (M : UncorrelatedModel μ T m0 cholP0 θ x y) (seen : ℕ → Fin ny → Bool) (hR : ∀ t < T, (θ t).cholR.det ≠ 0)
    (hQ : ∀ t < T, (θ t).cholQ.det ≠ 0) {t : ℕ} (ht : t < T) :
    ((θ t).F * covAt cholP0 θ seen t * (θ t).Fᵀ + (θ t).cholQ * (θ t).cholQᵀ).det ≠ 0 := by
  rw [add_comm]
  refine (isGram_of _).det_add_ne_zero ?_ ((covAt_gram M seen hR ht.le).conj _)
  rw [Matrix.det_mul, Matrix.det_transpose]
  exact mul_ne_zero (hQ t ht) (hQ t ht)

/-- The means of the smoother at time `T - k` as square-integrable functions. -/
def sE (M : UncorrelatedModel μ T m0 cholP0 θ x y) (seen : ℕ → Fin ny → Bool) : ℕ → Fin nx → SqInt μ :=
  smean (fun t => (θ t).F) (fun t => (θ t).cholQ * (θ t).cholQᵀ) (fun t => (θ t).c) (oneSq μ) (covAt cholP0 θ seen)
    (fE M seen) T

theorem backMarg_seen (M : UncorrelatedModel μ T m0 cholP0 θ x y) (seen : ℕ → Fin ny → Bool) (u₀ : Step nx ny) (ω : Ω)
    (LT : Matrix (Fin nx) (Fin nx) ℝ) (hL : LT * LTᵀ = covAt cholP0 θ seen T) : ∀ k ≤ T, ∀ bs,
    IsBackwardChain (kfAt (dataCallbacks m0 cholP0) u₀ (seenSteps θ seen T fun t => y t ω) (T - k))
      (((seenSteps θ seen T fun t => y t ω).drop (T - k)).map (stepOf (dataCallbacks m0 cholP0))) bs →
    backMarg (kfAt (dataCallbacks m0 cholP0) u₀ (seenSteps θ seen T fun t => y t ω) T).m LT bs =
      (ev (sE M seen k) ω, scov (fun t => (θ t).F) (fun t => (θ t).cholQ * (θ t).cholQᵀ) (covAt cholP0 θ seen) T k)
  | 0, _, bs, h => by
    rw [Nat.sub_zero, List.drop_of_length_le (seenSteps_length _ _ _ _).le, List.map_nil] at h
    cases bs with
    | cons b bs => exact h.elim
    | nil => exact Prod.ext (kfAt_seen M seen u₀ ω T le_rfl).1 hL
  | k + 1, hk, bs, h => by
    obtain ⟨t, ht⟩ : ∃ t, t = T - (k + 1) := ⟨_, rfl⟩
    have htT : t < T := by omega
    have ht' : T - k = t + 1 := by omega
    rw [← ht] at h
    have hlt : t < (seenSteps θ seen T fun t => y t ω).length := by rwa [seenSteps_length]
    have hu := seenSteps_get θ seen (fun t => y t ω) htT
    rw [List.drop_eq_getElem_cons hlt, List.map_cons, (List.getElem?_eq_some_iff.1 hu).2] at h
    cases bs with
    | nil => exact h.elim
    | cons b bs =>
      obtain ⟨hb, hc⟩ := h
      rw [← kfAt_succ _ _ _ _ _ hu, ← ht'] at hc
      have ih := backMarg_seen M seen u₀ ω LT hL k (by omega) bs hc
      obtain ⟨e1, e2⟩ := kfAt_seen M seen u₀ ω t htT.le
      have hg := hb.gain
      have hm := hb.mean (ev (sE M seen k) ω)
      have hcov := hb.cov
      rw [e2] at hg hcov
      rw [e1, e2, condMean_affine] at hm
      rw [backMarg, ih]
      refine Prod.ext ?_ ?_
      · refine hm.trans ?_
        rw [sE, smean, ← ht]
        simp only [ev_add, ev_act, ev_sub, ev_cst]
        change (covAt cholP0 θ seen t * (θ t).Fᵀ * (innovCov (covAt cholP0 θ seen t) (θ t).F ((θ t).cholQ * (θ t).cholQᵀ))⁻¹) *ᵥ
            ev (sE M seen k) ω + (ev (fE M seen t) ω - (covAt cholP0 θ seen t * (θ t).Fᵀ * (innovCov (covAt cholP0 θ seen t)
              (θ t).F ((θ t).cholQ * (θ t).cholQᵀ))⁻¹) *ᵥ ((θ t).F *ᵥ ev (fE M seen t) ω + (θ t).c)) =
          ev (fE M seen t) ω + (covAt cholP0 θ seen t * (θ t).Fᵀ * (innovCov (covAt cholP0 θ seen t) (θ t).F
            ((θ t).cholQ * (θ t).cholQᵀ))⁻¹) *ᵥ (ev (sE M seen k) ω - ((θ t).F *ᵥ ev (fE M seen t) ω + (θ t).c))
        rw [Matrix.mulVec_sub]
        abel
      · rw [scov, ← ht, hg, hcov]
        exact add_comm _ _

/-- **C113** (smoother). The same for what the smoother returns at any time `t ≤ T`, among the affine functions of all
the data seen up to time `T`, in every combination of modes. -/
theorem smoother_best_linear (qr : QR) (rng rng' : Prng K) (parallel parallel' : Bool) (key key' : Option K) (hT : 0 < T)
    (M : UncorrelatedModel μ T m0 cholP0 θ x y) (hR : ∀ t < T, (θ t).cholR.det ≠ 0) (hQ : ∀ t < T, (θ t).cholQ.det ≠ 0)
    (seen : ℕ → Fin ny → Bool) (u₀ : Step nx ny) (opts : SmootherOpts nx (Step nx ny)) (t : ℕ) (ht : t ≤ T) :
    ∃ (m : Ω → Fin nx → ℝ) (P : Matrix (Fin nx) (Fin nx) ℝ),
      (∀ ω, ∃ fs states s L, (filter rng (buildFilter qr (dataCallbacks m0 cholP0))
        (u₀ :: seenSteps θ seen T fun t => y t ω) parallel key).result = .ok fs ∧
        (smoother rng' FilterState.modelInputs (fun u => .ok (opts.dummy u))
          (buildSmoother qr (dataCallbacks (ny := ny) m0 cholP0).getDynamics opts) fs none parallel' key').result =
            .ok states ∧ states[t]? = some s ∧ s.mean = some (m ω) ∧ s.cholCov = some L ∧ L * Lᵀ = P) ∧
      (∀ i, ∫ ω, (x t ω i - m ω i) ∂μ = 0) ∧ (∀ i j, ∫ ω, (x t ω i - m ω i) * (x t ω j - m ω j) ∂μ = P i j) ∧
      ∀ v : Fin nx → ℝ, ∫ ω, (v ⬝ᵥ x t ω - v ⬝ᵥ m ω) ^ 2 ∂μ = v ⬝ᵥ P *ᵥ v ∧
        ∀ a₀ a, ∫ ω, (v ⬝ᵥ x t ω - v ⬝ᵥ m ω) ^ 2 ∂μ ≤
          ∫ ω, (v ⬝ᵥ x t ω - affineIn seen T a₀ a fun s => y s ω) ^ 2 ∂μ := by
  obtain ⟨k, hk, rfl⟩ : ∃ k ≤ T, t = T - k := ⟨T - t, by omega, by omega⟩
  obtain ⟨h1, h2, h3⟩ := (modelE M seen).smoother (covAt cholP0 θ seen) rfl (fun _ _ => rfl)
    (fun t ht => innov_seen M seen hR ht) (fun t ht => predict_seen M seen hR hQ ht) k hk
  refine ⟨fun ω => ev (sE M seen k) ω, _, fun ω => ?_, optimal_of M seen (by omega) le_rfl h1 h2 h3⟩
  have hR' := seenSteps_R hR seen m0 cholP0 fun t => y t ω
  obtain ⟨fs, h4, -, -⟩ := kalman_filter_exact qr rng (dataCallbacks m0 cholP0) u₀
    (seenSteps θ seen T fun t => y t ω) parallel key hR'
  have hne : (seenSteps θ seen T fun t => y t ω) ≠ [] := fun h => by
    have := seenSteps_length θ seen T fun t => y t ω
    rw [h] at this
    simp at this
    omega
  have hP : ∀ (t : ℕ) s L u, fs[t]? = some s → s.cholCov = some L → (seenSteps θ seen T fun t => y t ω)[t]? = some u →
      ((stepOf (dataCallbacks m0 cholP0) u).F * (L * Lᵀ) * ((stepOf (dataCallbacks m0 cholP0) u).F)ᵀ +
        (stepOf (dataCallbacks m0 cholP0) u).cholQ * ((stepOf (dataCallbacks m0 cholP0) u).cholQ)ᵀ).det ≠ 0 := by
    intro t s L u _ _ hu
    obtain ⟨t', ht', rfl⟩ := List.mem_map.mp (List.mem_of_getElem? hu)
    rw [add_comm]
    refine (isGram_of _).det_add_ne_zero ?_ ((isGram_of L).conj _)
    rw [Matrix.det_mul, Matrix.det_transpose]
    exact mul_ne_zero (hQ t' (List.mem_range.mp ht')) (hQ t' (List.mem_range.mp ht'))
  obtain ⟨states, LT, h5, h6, h7, h8⟩ := smoother_run_facts qr rng rng' (dataCallbacks m0 cholP0) u₀ _ hne parallel parallel'
    key key' opts (fun u hu => ScanOk.of_R _ (hR' u hu)) fs h4 hP none (Or.inl rfl)
  rw [seenSteps_length] at h7 h8
  obtain ⟨s, e, bs, h9, h10, h11, h12, -⟩ := h8 (T - k) (by omega)
  rw [(kfAt_seen M seen u₀ ω T le_rfl).2] at h7
  rw [backMarg_seen M seen u₀ ω LT h7 k hk bs h11] at h12
  refine ⟨fs, states, s, e.D, h4, h5, h9, ?_, ?_, congrArg SElem.C h12⟩
  · rw [SmootherState.mean, h10]
    exact congrArg some (congrArg SElem.g h12)
  · rw [SmootherState.cholCov, h10]
    rfl

end

/-! ### A process that is not Gaussian -/

/-- A random sign. -/
def sgn (b : Bool) : ℝ := if b then 1 else -1

/-- Initial state and noise of the transition are fair signs, the noise of the observation is their product: not
Gaussian and not independent, but uncorrelated. -/
theorem exists_uncorrelated : ∃ μ : Measure (Bool × Bool), IsProbabilityMeasure μ ∧
    UncorrelatedModel (nx := 1) (ny := 1) μ 1 0 1 (fun _ => ⟨1, 0, 1, 1, 0, 1⟩)
      (fun t ω _ => if t = 0 then sgn ω.1 else sgn ω.1 + sgn ω.2)
      (fun _ ω _ => sgn ω.1 + sgn ω.2 + sgn ω.1 * sgn ω.2) := by
  have hi : ∀ f : Bool × Bool → ℝ, ∫ ω, f ω ∂(PMF.uniformOfFintype (Bool × Bool)).toMeasure =
      (f (true, true) + f (true, false) + f (false, true) + f (false, false)) / 4 := by
    intro f
    rw [PMF.integral_eq_sum]
    simp [Fintype.sum_prod_type, PMF.uniformOfFintype_apply]
    ring
  refine ⟨(PMF.uniformOfFintype (Bool × Bool)).toMeasure, inferInstance, ?_⟩
  constructor
  all_goals simp only [Nat.lt_one_iff, forall_eq, ne_eq, not_true_eq_false, false_implies, Fin.forall_fin_one,
    Fin.isValue, hi]
  all_goals first | exact MemLp.of_discrete | (norm_num [dynNoise, obsNoise, sgn, Matrix.mulVec, dotProduct])

end

end Cuthbert.Kalman
