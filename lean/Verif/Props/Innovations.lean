import Verif.Props.Calibration
import Verif.Props.LinearizedFilters

/-!
# On simulated data the innovations of the Kalman filter are independent and Gaussian (C105)
-/

namespace Cuthbert.Generate
open MeasureTheory ProbabilityTheory Matrix Cuthbert.Kalman Cuthbert.Spec
open scoped ENNReal

noncomputable section

variable {nx ny : ℕ}

/-- The observation that a step with parameters `θ` predicts from the filtering mean `m`. -/
def predictedObs (θ : Par nx ny) (m : Fin nx → ℝ) : Fin ny → ℝ := θ.H *ᵥ (θ.F *ᵥ m + θ.c) + θ.d

/-- The covariance of that prediction for the filtering covariance `P`. -/
def predictedObsCov (θ : Par nx ny) (P : Matrix (Fin nx) (Fin nx) ℝ) : Matrix (Fin ny) (Fin ny) ℝ :=
  θ.H * (θ.F * P * θ.Fᵀ + θ.cholQ * θ.cholQᵀ) * θ.Hᵀ + θ.cholR * θ.cholRᵀ

theorem predictedObsCov_gram (θ : Par nx ny) {P : Matrix (Fin nx) (Fin nx) ℝ} (hP : IsGram P) :
    IsGram (predictedObsCov θ P) :=
  (((hP.conj _).add (isGram_of _)).conj _).add (isGram_of _)

theorem predictedObsCov_det (θ : Par nx ny) (hR : θ.cholR.det ≠ 0) {P : Matrix (Fin nx) (Fin nx) ℝ} (hP : IsGram P) :
    (predictedObsCov θ P).det ≠ 0 := by
  rw [predictedObsCov, add_comm]
  refine (isGram_of _).det_add_ne_zero ?_ (((hP.conj _).add (isGram_of _)).conj _)
  rw [Matrix.det_mul, Matrix.det_transpose]
  exact mul_ne_zero hR hR

/-- The filtering recursion after `t` of the steps. -/
def runAt {T : ℕ} (θ : Fin T → Par nx ny) (k : KF nx) (y : Fin T → Fin ny → ℝ) (t : ℕ) : KF nx :=
  ((stepsOf θ y).take t).foldl kfStep k

theorem kfStep_at (k : KF nx) (θ : Par nx ny) (y : Fin ny → ℝ) :
    kfStep k (stepAt θ y) = ⟨condMean (θ.F *ᵥ k.m + θ.c) (θ.F * k.P * θ.Fᵀ + θ.cholQ * θ.cholQᵀ) θ.H θ.d
        (θ.cholR * θ.cholRᵀ) y,
      condCov (θ.F * k.P * θ.Fᵀ + θ.cholQ * θ.cholQᵀ) θ.H (θ.cholR * θ.cholRᵀ),
      k.l + gaussLogDensity (predictedObs θ k.m) (predictedObsCov θ k.P) y⟩ := by
  have h1 := condMean_reindex (obsAll y) (θ.F *ᵥ k.m + θ.c) (θ.F * k.P * θ.Fᵀ + θ.cholQ * θ.cholQᵀ)
    (obsH (stepAt θ y).y θ.H) (obsV (stepAt θ y).y θ.d) (stepAt θ y).R (obsY (stepAt θ y).y)
  have h2 := condCov_reindex (obsAll y) (θ.F * k.P * θ.Fᵀ + θ.cholQ * θ.cholQᵀ) (obsH (stepAt θ y).y θ.H) (stepAt θ y).R
  have h3 := Cuthbert.gaussLogDensity_reindex (obsAll y) (obsH (stepAt θ y).y θ.H *ᵥ (θ.F *ᵥ k.m + θ.c) + obsV (stepAt θ y).y θ.d)
    (innovCov (θ.F * k.P * θ.Fᵀ + θ.cholQ * θ.cholQᵀ) (obsH (stepAt θ y).y θ.H) (stepAt θ y).R) (obsY (stepAt θ y).y)
  exact congr (congr (congrArg KF.mk h1.symm) h2.symm) (congrArg (k.l + ·) h3.symm)

theorem runAt_zero {T : ℕ} (θ : Fin T → Par nx ny) (k : KF nx) (y : Fin T → Fin ny → ℝ) : runAt θ k y 0 = k := rfl

theorem runAt_succ {T : ℕ} (θ : Fin (T + 1) → Par nx ny) (k : KF nx) (y : Fin (T + 1) → Fin ny → ℝ) (t : ℕ) :
    runAt θ k y (t + 1) = runAt (fun t => θ t.succ) (kfStep k (stepAt (θ 0) (y 0))) (fun t => y t.succ) t := by
  rw [runAt, stepsOf_succ, List.take_succ_cons, List.foldl_cons]
  rfl

/-- Covariances do not depend on the data. -/
theorem runAt_P {T : ℕ} (θ : Fin T → Par nx ny) (k k' : KF nx) (hk : k.P = k'.P) (y y' : Fin T → Fin ny → ℝ) (t : ℕ) :
    (runAt θ k y t).P = (runAt θ k' y' t).P := by
  induction T generalizing k k' t with
  | zero => simpa [runAt, stepsOf] using hk
  | succ T ih =>
    cases t with
    | zero => exact hk
    | succ t =>
      rw [runAt_succ, runAt_succ]
      refine ih _ _ _ ?_ _ _ t
      rw [kfStep_at, kfStep_at, hk]

theorem runAt_gram {T : ℕ} (θ : Fin T → Par nx ny) (hR : ∀ t, (θ t).cholR.det ≠ 0) (k : KF nx) (hk : IsGram k.P)
    (y : Fin T → Fin ny → ℝ) (t : ℕ) : IsGram (runAt θ k y t).P :=
  kf_gram _ hk fun s hs => innov_det_of_R s (stepsOf_R θ hR y s (List.mem_of_mem_take hs)) (isGram_of _)

theorem measurable_gld (S : Matrix (Fin ny) (Fin ny) ℝ) {Ω : Type*} [MeasurableSpace Ω] {m y : Ω → Fin ny → ℝ}
    (hm : Measurable m) (hy : Measurable y) : Measurable fun ω => gaussLogDensity (m ω) S (y ω) := by
  have h1 : Measurable fun ω => y ω - m ω := hy.sub hm
  have h2 : Measurable fun ω => S⁻¹ *ᵥ (y ω - m ω) := (measurable_mulVec _).comp h1
  have h3 : Measurable fun ω => (y ω - m ω) ⬝ᵥ S⁻¹ *ᵥ (y ω - m ω) := by
    unfold dotProduct
    exact Finset.measurable_sum _ fun i _ => ((measurable_pi_apply i).comp h1).mul ((measurable_pi_apply i).comp h2)
  unfold gaussLogDensity
  exact ((h3.const_mul _).sub_const _).sub_const _

theorem measurable_predictedObs (θ : Par nx ny) {Ω : Type*} [MeasurableSpace Ω] {m : Ω → Fin nx → ℝ} (hm : Measurable m) :
    Measurable fun ω => predictedObs θ (m ω) :=
  ((measurable_mulVec _).comp (((measurable_mulVec _).comp hm).add_const _)).add_const _

theorem measurable_runAt {T : ℕ} (θ : Fin T → Par nx ny) {Ω : Type*} [MeasurableSpace Ω] (k : Ω → KF nx)
    (P : Matrix (Fin nx) (Fin nx) ℝ) (hP : ∀ ω, (k ω).P = P) (hm : Measurable fun ω => (k ω).m)
    (hl : Measurable fun ω => (k ω).l) {y : Ω → Fin T → Fin ny → ℝ} (hy : Measurable y) (t : ℕ) :
    (Measurable fun ω => (runAt θ (k ω) (y ω) t).m) ∧ Measurable fun ω => (runAt θ (k ω) (y ω) t).l := by
  induction T generalizing k P t with
  | zero => simpa [runAt, stepsOf] using ⟨hm, hl⟩
  | succ T ih =>
    cases t with
    | zero => exact ⟨hm, hl⟩
    | succ t =>
      simp only [runAt_succ]
      have hy0 : Measurable fun ω => y ω 0 := (measurable_pi_apply 0).comp hy
      refine ih _ (fun ω => kfStep (k ω) (stepAt (θ 0) (y ω 0))) _ (fun ω => by rw [kfStep_at, hP]) ?_ ?_ ?_ t
      · simp only [kfStep_at, hP, condMean]
        have h1 : Measurable fun ω => (θ 0).F *ᵥ (k ω).m + (θ 0).c := ((measurable_mulVec _).comp hm).add_const _
        exact h1.add ((measurable_mulVec _).comp ((measurable_mulVec _).comp ((measurable_mulVec _).comp
          (hy0.sub (((measurable_mulVec _).comp h1).add_const _)))))
      · simp only [kfStep_at, hP]
        exact hl.add (measurable_gld _ (measurable_predictedObs _ hm) hy0)
      · exact measurable_pi_lambda _ fun i => (measurable_pi_apply _).comp hy

/-- The density of the observations in terms of the innovations. -/
theorem lintegral_innovations {T : ℕ} (θ : Fin T → Par nx ny) (hR : ∀ t, (θ t).cholR.det ≠ 0) (k : KF nx)
    (hk : IsGram k.P) (W : Fin T → Matrix (Fin ny) (Fin ny) ℝ)
    (hW : ∀ t y, W t * (W t)ᵀ = predictedObsCov (θ t) (runAt θ k y t).P)
    (φ : Fin T → (Fin ny → ℝ) → ℝ≥0∞) (hφ : ∀ t, Measurable (φ t)) :
    ∫⁻ y, ENNReal.ofReal (Real.exp ((runAt θ k y T).l - k.l)) * ∏ t, φ t (y t - predictedObs (θ t) (runAt θ k y t).m) =
      ∏ t, ∫⁻ z, φ t z ∂gauss 0 (W t) := by
  induction T generalizing k with
  | zero =>
    rw [volume_pi, Measure.pi_of_empty (μ := fun _ : Fin 0 => (volume : Measure (Fin ny → ℝ)))]
    simp [runAt, stepsOf]
  | succ T ih =>
    have hmeas : Measurable fun y : Fin (T + 1) → Fin ny → ℝ => ENNReal.ofReal (Real.exp ((runAt θ k y (T + 1)).l - k.l)) *
        ∏ t, φ t (y t - predictedObs (θ t) (runAt θ k y t).m) := by
      have hrun := fun t => measurable_runAt θ (Ω := Fin (T + 1) → Fin ny → ℝ) (fun _ => k) k.P (fun _ => rfl) measurable_const
        measurable_const measurable_id t
      refine Measurable.mul ?_ (Finset.measurable_prod _ fun t _ => ?_)
      · exact ENNReal.measurable_ofReal.comp (Real.measurable_exp.comp ((hrun (T + 1)).2.sub_const _))
      · exact (hφ t).comp ((measurable_pi_apply t).sub (measurable_predictedObs _ (hrun t).1))
    have hW0 : W 0 * (W 0)ᵀ = predictedObsCov (θ 0) k.P := hW 0 fun _ _ => 0
    have hWd : (W 0).det ≠ 0 := by
      intro h0
      refine predictedObsCov_det (θ 0) (hR 0) hk ?_
      rw [← hW0, Matrix.det_mul, h0, zero_mul]
    have hinner : ∀ a : Fin ny → ℝ, ∫⁻ q : Fin T → Fin ny → ℝ,
        ENNReal.ofReal (Real.exp ((runAt θ k (Fin.cons a q) (T + 1)).l - k.l)) *
          ∏ t, φ t ((Fin.cons a q : Fin (T + 1) → Fin ny → ℝ) t - predictedObs (θ t) (runAt θ k (Fin.cons a q) t).m) =
        ENNReal.ofReal (Real.exp (gaussLogDensity (predictedObs (θ 0) k.m) (predictedObsCov (θ 0) k.P) a)) *
          φ 0 (a - predictedObs (θ 0) k.m) * ∏ t : Fin T, ∫⁻ z, φ t.succ z ∂gauss 0 (W t.succ) := by
      intro a
      obtain ⟨k', hk'⟩ : ∃ k', k' = kfStep k (stepAt (θ 0) a) := ⟨_, rfl⟩
      have hkl : k'.l = k.l + gaussLogDensity (predictedObs (θ 0) k.m) (predictedObsCov (θ 0) k.P) a := by
        rw [hk', kfStep_at]
      have hg : IsGram k'.P := by
        rw [hk']; exact kfStep_gram hk _ (innov_det_of_R _ (stepAt_R (θ 0) a (hR 0)) (isGram_of _))
      have hr : ∀ (q : Fin T → Fin ny → ℝ) t, runAt θ k (Fin.cons a q) (t + 1) = runAt (fun t => θ t.succ) k' q t := by
        intro q t
        rw [runAt_succ, hk']
        rfl
      have e := ih (fun t => θ t.succ) (fun t => hR t.succ) k' hg (fun t => W t.succ)
        (fun t q => by have := hW t.succ (Fin.cons a q); rwa [Fin.val_succ, hr] at this) (fun t => φ t.succ) fun t => hφ t.succ
      rw [← e]
      have hc : ENNReal.ofReal (Real.exp (gaussLogDensity (predictedObs (θ 0) k.m) (predictedObsCov (θ 0) k.P) a)) *
          φ 0 (a - predictedObs (θ 0) k.m) = φ 0 (a - predictedObs (θ 0) k.m) *
          ENNReal.ofReal (Real.exp (gaussLogDensity (predictedObs (θ 0) k.m) (predictedObsCov (θ 0) k.P) a)) := mul_comm _ _
      have hrun := fun t => measurable_runAt (fun t => θ t.succ) (Ω := Fin T → Fin ny → ℝ) (fun _ => k') k'.P (fun _ => rfl)
        measurable_const measurable_const measurable_id t
      rw [← lintegral_const_mul]
      · refine lintegral_congr fun q => ?_
        rw [Fin.prod_univ_succ, hr]
        have e1 : (runAt (fun t => θ t.succ) k' q T).l - k.l =
            gaussLogDensity (predictedObs (θ 0) k.m) (predictedObsCov (θ 0) k.P) a +
              ((runAt (fun t => θ t.succ) k' q T).l - k'.l) := by rw [hkl]; ring
        rw [e1, Real.exp_add, ENNReal.ofReal_mul (Real.exp_nonneg _)]
        simp only [Fin.cons_zero, Fin.cons_succ, Fin.val_zero, runAt_zero, Fin.val_succ, hr]
        ring
      · refine Measurable.mul ?_ (Finset.measurable_prod _ fun t _ => ?_)
        · exact ENNReal.measurable_ofReal.comp (Real.measurable_exp.comp ((hrun T).2.sub_const _))
        · exact (hφ t.succ).comp ((measurable_pi_apply t).sub (measurable_predictedObs _ (hrun t).1))
    have hv : (volume : Measure (Fin (T + 1) → Fin ny → ℝ)) = Measure.pi fun _ => volume := volume_pi
    have hv' : (volume : Measure (Fin T → Fin ny → ℝ)) = Measure.pi fun _ => volume := volume_pi
    rw [hv, lintegral_pi_succ _ hmeas, ← hv']
    simp only [hinner]
    have hm0 : Measurable fun a => φ 0 (a - predictedObs (θ 0) k.m) := (hφ 0).comp (measurable_id.sub measurable_const)
    have hmd : Measurable fun a : Fin ny → ℝ =>
        ENNReal.ofReal (Real.exp (gaussLogDensity (predictedObs (θ 0) k.m) (predictedObsCov (θ 0) k.P) a)) :=
      ENNReal.measurable_ofReal.comp (Real.measurable_exp.comp (measurable_gld _ measurable_const measurable_id))
    have hmm : Measurable fun a => ENNReal.ofReal (Real.exp (gaussLogDensity (predictedObs (θ 0) k.m)
        (predictedObsCov (θ 0) k.P) a)) * φ 0 (a - predictedObs (θ 0) k.m) := hmd.mul hm0
    rw [lintegral_mul_const _ hmm, Fin.prod_univ_succ]
    congr 1
    rw [← gauss_centred (predictedObs (θ 0) k.m) (W 0) (hφ 0), gauss_eq_withDensity _ _ hWd, hW0,
      lintegral_withDensity_eq_lintegral_mul _ hmd hm0]
    rfl

/-- **C105.** On simulated data the innovations of the Kalman filter, the differences of each observation and its
prediction from the filtering mean before it, are independent, and each has the law `N(0, S)` with the covariance `S` that
follows from the filtering covariance before it. `W` is any square root of `S`. -/
theorem kalman_innovations {K : Type} (qr : QR) (rng : Prng K) (parallel : Bool) (key : Option K) {T : ℕ}
    (m0 : Fin nx → ℝ) (cholP0 : Matrix (Fin nx) (Fin nx) ℝ) (θ : Fin T → Par nx ny)
    (hR : ∀ t, (θ t).cholR.det ≠ 0) (u₀ : Step nx ny) :
    ∃ (m : Fin T → (Fin T → Fin ny → ℝ) → Fin nx → ℝ) (P : Fin T → Matrix (Fin nx) (Fin nx) ℝ),
      (∀ y, ∃ states, (filter rng (buildFilter qr (dataCallbacks m0 cholP0)) (u₀ :: stepsOf θ y) parallel
        key).result = .ok states ∧ ∀ t : Fin T, ∃ s L, states[t.1]? = some s ∧ s.mean = some (m t y) ∧
          s.cholCov = some L ∧ L * Lᵀ = P t) ∧
      ∀ W : Fin T → Matrix (Fin ny) (Fin ny) ℝ, (∀ t, W t * (W t)ᵀ = predictedObsCov (θ t) (P t)) →
        (∀ φ : Fin T → (Fin ny → ℝ) → ℝ≥0∞, (∀ t, Measurable (φ t)) →
          simExp m0 cholP0 θ (fun _ y => ∏ t, φ t (y t - predictedObs (θ t) (m t y))) = ∏ t, ∫⁻ z, φ t z ∂gauss 0 (W t)) ∧
        ∀ φ : Fin T → (Fin ny → ℝ) → ℝ≥0∞, (∀ t, Measurable (φ t)) →
          simExp m0 cholP0 θ (fun _ y => ∏ t, φ t ((W t)⁻¹ *ᵥ (y t - predictedObs (θ t) (m t y)))) =
            ∏ t, ∫⁻ z, φ t z ∂stdNormal (Fin ny) := by
  obtain ⟨k, hk⟩ : ∃ k : KF nx, k = ⟨m0, cholP0 * cholP0ᵀ, 0⟩ := ⟨_, rfl⟩
  have hkP : IsGram k.P := by rw [hk]; exact isGram_of _
  have hlen : ∀ y, (stepsOf θ y).length = T := fun y => by simp [stepsOf]
  have hrunAt : ∀ y t, kfAt (dataCallbacks m0 cholP0) u₀ (stepsOf θ y) t = runAt θ k y t := fun y t => by
    rw [kfAt, stepOf_data, List.map_id, hk]; rfl
  have first : ∀ W : Fin T → Matrix (Fin ny) (Fin ny) ℝ,
      (∀ t, W t * (W t)ᵀ = predictedObsCov (θ t) (runAt θ k (fun _ _ => 0) t).P) →
      ∀ φ : Fin T → (Fin ny → ℝ) → ℝ≥0∞, (∀ t, Measurable (φ t)) →
        simExp m0 cholP0 θ (fun _ y => ∏ t, φ t (y t - predictedObs (θ t) (runAt θ k y t).m)) =
          ∏ t, ∫⁻ z, φ t z ∂gauss 0 (W t) := by
    intro W hW φ hφ
    rw [← lintegral_innovations θ hR k hkP W (fun t y => by rw [hW, runAt_P θ k k rfl]) φ hφ]
    have hrun := fun t => measurable_runAt θ (Ω := Fin T → Fin ny → ℝ) (fun _ => k) k.P (fun _ => rfl) measurable_const
      measurable_const measurable_id t
    have hψ : Measurable fun y : Fin T → Fin ny → ℝ => ∏ t, φ t (y t - predictedObs (θ t) (runAt θ k y t).m) :=
      Finset.measurable_prod _ fun t _ => (hφ t).comp ((measurable_pi_apply t).sub (measurable_predictedObs _ (hrun t).1))
    rw [simExp, simulation_law m0 cholP0 θ hR
      (f := fun q => ∏ t, φ t (q.2 t - predictedObs (θ t) (runAt θ k q.2 t).m)) (hψ.comp measurable_snd)]
    refine lintegral_congr fun y => ?_
    have hc := jointExp_mul_const m0 cholP0 (stepsOf θ y) (f := fun _ => 1) measurable_const
      (∏ t, φ t (y t - predictedObs (θ t) (runAt θ k y t).m))
    simp only [one_mul] at hc
    rw [hc]
    congr 1
    obtain ⟨L, hL⟩ := (runAt_gram θ hR k hkP y T).exists_sqrt
    have e := kfAt_exact (dataCallbacks m0 cholP0) u₀ (stepsOf θ y) (stepsOf_R θ hR y) T (hlen y).ge L
      (by rw [hrunAt]; exact hL) (φ := fun _ => 1) measurable_const
    rw [List.take_of_length_le (hlen y).le, stepOf_data, List.map_id, hrunAt, lintegral_const, measure_univ, mul_one,
      mul_one] at e
    have hk0 : k.l = 0 := by rw [hk]
    rw [hk0, sub_zero]
    exact e
  refine ⟨fun t y => (runAt θ k y t).m, fun t => (runAt θ k (fun _ _ => 0) t).P, fun y => ?_, fun W hW => ⟨first W hW, ?_⟩⟩
  · obtain ⟨states, h1, -, h3⟩ := Linearize.kalman_run qr rng (dataCallbacks m0 cholP0) u₀ (stepsOf θ y) parallel key
      (stepsOf_R θ hR y)
    refine ⟨states, h1, fun t => ?_⟩
    obtain ⟨s, hs, hm, ⟨L, hL, hP⟩, -⟩ := h3 t (by rw [hlen]; exact t.2.le)
    rw [hrunAt] at hm hP
    exact ⟨s, L, hs, hm, hL, hP.trans (runAt_P θ k k rfl _ _ _)⟩
  · intro φ hφ
    have hWm : ∀ t, Measurable fun z : Fin ny → ℝ => (W t)⁻¹ *ᵥ z := fun t => measurable_mulVec _
    rw [first W hW (fun t z => φ t ((W t)⁻¹ *ᵥ z)) fun t => (hφ t).comp (hWm t)]
    refine Finset.prod_congr rfl fun t _ => ?_
    have hWd : (W t).det ≠ 0 := by
      intro h0
      refine predictedObsCov_det (θ t) (hR t) (runAt_gram θ hR k hkP (fun _ _ => 0) t) ?_
      rw [← hW, Matrix.det_mul, h0, zero_mul]
    rw [lintegral_gauss _ _ (f := fun z => φ t ((W t)⁻¹ *ᵥ z)) ((hφ t).comp (hWm t))]
    refine lintegral_congr fun ε => ?_
    rw [zero_add, Matrix.mulVec_mulVec, Matrix.nonsing_inv_mul _ (isUnit_iff_ne_zero.2 hWd), Matrix.one_mulVec]

/-- Non-vacuity: square roots of the innovation covariances exist. -/
theorem exists_innovation_roots {T : ℕ} (θ : Fin T → Par nx ny) (L : Fin T → Matrix (Fin nx) (Fin nx) ℝ) :
    ∃ W : Fin T → Matrix (Fin ny) (Fin ny) ℝ, ∀ t, W t * (W t)ᵀ = predictedObsCov (θ t) (L t * (L t)ᵀ) := by
  choose W hW using fun t => (predictedObsCov_gram (θ t) (isGram_of (L t))).exists_sqrt
  exact ⟨W, hW⟩

example : ∃ θ : Fin 3 → Par 1 1, (∀ t, (θ t).cholR.det ≠ 0) ∧ ∀ t, (θ t).F ≠ 0 ∧ (θ t).H ≠ 0 ∧ (θ t).cholQ ≠ 0 :=
  ⟨fun _ => { F := 1, c := 0, cholQ := 1, H := 1, d := 0, cholR := 1 }, fun _ => by simp, fun _ => by simp⟩

end

end Cuthbert.Generate
