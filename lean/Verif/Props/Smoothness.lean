import Verif.Lemmas.Smoothness
import Verif.Props.EM
import Verif.Props.LinearizedFilters

/-!
# Exact filters and smoothers are differentiable functions of the model (C106)
-/

namespace Cuthbert.Kalman
open MeasureTheory Matrix Cuthbert.Spec

noncomputable section

variable {nx ny : ℕ} {Inp K : Type} {E : Type*} [NormedAddCommGroup E] [NormedSpace ℝ E] {n : WithTop ℕ∞} {U : Set E}

/-- The parameters of a step are smooth functions of `θ`; its data do not depend on `θ`. -/
structure SmoothStep (n : WithTop ℕ∞) (U : Set E) (s : E → Step nx ny) : Prop where
  F : SmoothMat n U fun θ => (s θ).F
  c : SmoothVec n U fun θ => (s θ).c
  cholQ : SmoothMat n U fun θ => (s θ).cholQ
  H : SmoothMat n U fun θ => (s θ).H
  d : SmoothVec n U fun θ => (s θ).d
  cholR : SmoothMat n U fun θ => (s θ).cholR
  y : ∃ y, ∀ θ, (s θ).y = y

/-- The callbacks are smooth functions of `θ`, with data that do not depend on `θ`. -/
structure SmoothModel (n : WithTop ℕ∞) (U : Set E) (cb : E → Callbacks nx ny Inp) (u₀ : Inp) (us : List Inp) : Prop where
  mean : SmoothVec n U fun θ => ((cb θ).getInit u₀).1
  chol : SmoothMat n U fun θ => ((cb θ).getInit u₀).2
  step : ∀ u ∈ us, SmoothStep n U fun θ => stepOf (cb θ) u

structure SmoothKF (n : WithTop ℕ∞) (U : Set E) (k : E → KF nx) : Prop where
  m : SmoothVec n U fun θ => (k θ).m
  P : SmoothMat n U fun θ => (k θ).P
  l : ContDiffOn ℝ n (fun θ => (k θ).l) U

theorem SmoothKF.step_aux {k : E → KF nx} (hk : SmoothKF n U k) {F Q : E → Matrix (Fin nx) (Fin nx) ℝ} {c : E → Fin nx → ℝ}
    {H : E → Matrix (Fin ny) (Fin nx) ℝ} {d : E → Fin ny → ℝ} {R : E → Matrix (Fin ny) (Fin ny) ℝ} (y : Fin ny → Option ℝ)
    (hF : SmoothMat n U F) (hc : SmoothVec n U c) (hQ : SmoothMat n U Q) (hH : SmoothMat n U H) (hd : SmoothVec n U d)
    (hR : SmoothMat n U R)
    (hdet : ∀ θ ∈ U, (innovCov (F θ * (k θ).P * (F θ)ᵀ + Q θ * (Q θ)ᵀ) (obsH y (H θ))
      (obsL y (R θ) * (obsL y (R θ))ᵀ)).det ≠ 0) :
    SmoothKF n U fun θ => kfStep (k θ) ⟨F θ, c θ, Q θ, H θ, d θ, R θ, y⟩ := by
  have hP := ((hF.mul hk.P).mul hF.transpose).add (hQ.mul hQ.transpose)
  have hm := (hF.mulVec hk.m).add hc
  have hH' : SmoothMat n U fun θ => obsH y (H θ) := fun i j => hH i.1 j
  have hd' : SmoothVec n U fun θ => obsV y (d θ) := fun i => hd i.1
  have hL : SmoothMat n U fun θ => obsL y (R θ) := fun i j => hR i.1 j
  have hRs := hL.mul hL.transpose
  have hys : SmoothVec n U fun _ : E => obsY y := SmoothVec.const _
  have h1 := smooth_condMean hm hP hH' hd' hRs hys hdet
  have h2 := smooth_condCov hP hH' hRs hdet
  have h3 := hk.l.add (smooth_gaussLogDensity ((hH'.mulVec hm).add hd') (smooth_innovCov hP hH' hRs) hys hdet)
  constructor
  · exact h1
  · exact h2
  · exact h3

theorem SmoothKF.step {k : E → KF nx} (hk : SmoothKF n U k) (hg : ∀ θ ∈ U, IsGram (k θ).P) {s : E → Step nx ny}
    (hs : SmoothStep n U s) (hR : ∀ θ ∈ U, (s θ).R.det ≠ 0) : SmoothKF n U fun θ => kfStep (k θ) (s θ) := by
  obtain ⟨y, hy⟩ := hs.y
  have hss : ∀ θ, s θ = ⟨(s θ).F, (s θ).c, (s θ).cholQ, (s θ).H, (s θ).d, (s θ).cholR, y⟩ := fun θ => by rw [← hy θ]
  have h := hk.step_aux y hs.F hs.c hs.cholQ hs.H hs.d hs.cholR fun θ hθ => by
    have h1 := innov_det_of_R (s θ) (hR θ hθ) (pred_gram (hg θ hθ) (s θ))
    rw [hss θ] at h1
    exact h1
  simpa only [← hss] using h

theorem SmoothKF.fold : ∀ (σ : List (E → Step nx ny)) {k : E → KF nx}, SmoothKF n U k → (∀ θ ∈ U, IsGram (k θ).P) →
    (∀ s ∈ σ, SmoothStep n U s) → (∀ s ∈ σ, ∀ θ ∈ U, (s θ).R.det ≠ 0) →
    SmoothKF n U fun θ => (σ.map (· θ)).foldl kfStep (k θ)
  | [], _, hk, _, _, _ => hk
  | s :: σ, k, hk, hg, hs, hR => by
    have h0 := hR s List.mem_cons_self
    exact SmoothKF.fold σ (hk.step hg (hs s List.mem_cons_self) h0)
      (fun θ hθ => Kalman.kfStep_gram (k θ) (hg θ hθ) (s θ) (h0 θ hθ))
      (fun s' h' => hs s' (List.mem_cons_of_mem _ h')) fun s' h' => hR s' (List.mem_cons_of_mem _ h')

theorem SmoothModel.kfAt {cb : E → Callbacks nx ny Inp} {u₀ : Inp} {us : List Inp} (h : SmoothModel n U cb u₀ us)
    (hR : ∀ θ ∈ U, ∀ u ∈ us, (stepOf (cb θ) u).R.det ≠ 0) (t : ℕ) : SmoothKF n U fun θ => Kalman.kfAt (cb θ) u₀ us t := by
  have e : ∀ θ, (us.take t).map (stepOf (cb θ)) = ((us.take t).map fun u η => stepOf (cb η) u).map (· θ) := fun θ => by
    simp [Function.comp_def]
  simp only [Kalman.kfAt, e]
  refine SmoothKF.fold _ ⟨h.mean, h.chol.mul h.chol.transpose, contDiffOn_const⟩ (fun θ _ => isGram_of _) ?_ ?_
  · intro s hs
    obtain ⟨u, hu, rfl⟩ := List.mem_map.mp hs
    exact h.step u (List.mem_of_mem_take hu)
  · intro s hs θ hθ
    obtain ⟨u, hu, rfl⟩ := List.mem_map.mp hs
    exact hR θ hθ u (List.mem_of_mem_take hu)

/-- **C106**, Kalman filter. -/
theorem kalman_filter_smooth (qr : QR) (rng : Prng K) (cb : E → Callbacks nx ny Inp) (u₀ : Inp) (us : List Inp)
    (parallel : Bool) (key : Option K) (h : SmoothModel n U cb u₀ us)
    (hR : ∀ θ ∈ U, ∀ u ∈ us, (stepOf (cb θ) u).R.det ≠ 0) (states : E → List (FilterState nx Inp))
    (hf : ∀ θ ∈ U, (filter rng (buildFilter qr (cb θ)) (u₀ :: us) parallel key).result = .ok (states θ))
    (t : ℕ) (s : E → FilterState nx Inp) (hs : ∀ θ ∈ U, (states θ)[t]? = some (s θ)) :
    (∀ m, (∀ θ ∈ U, (s θ).mean = some (m θ)) → SmoothVec n U m) ∧
      (∀ L : E → Matrix (Fin nx) (Fin nx) ℝ, (∀ θ ∈ U, (s θ).cholCov = some (L θ)) → SmoothMat n U fun θ => L θ * (L θ)ᵀ) ∧
      ((∀ θ ∈ U, IsLower ((cb θ).getInit u₀).2) → ∀ l, (∀ θ ∈ U, (s θ).logNormalizingConstant = some (l θ)) →
        ContDiffOn ℝ n l U) := by
  have hk := h.kfAt hR t
  have key : ∀ θ ∈ U, (s θ).mean = some (Kalman.kfAt (cb θ) u₀ us t).m ∧
      (∃ L, (s θ).cholCov = some L ∧ L * Lᵀ = (Kalman.kfAt (cb θ) u₀ us t).P) ∧
      (IsLower ((cb θ).getInit u₀).2 → ∀ l, (s θ).logNormalizingConstant = some l → l = (Kalman.kfAt (cb θ) u₀ us t).l) := by
    intro θ hθ
    obtain ⟨states', h1, h2, h3⟩ := Linearize.kalman_run qr rng (cb θ) u₀ us parallel key (hR θ hθ)
    rw [hf θ hθ] at h1
    obtain rfl := Except.ok.inj h1
    have ht : t ≤ us.length := by
      have := (List.getElem?_eq_some_iff.mp (hs θ hθ)).1
      omega
    obtain ⟨s', hs', h4⟩ := h3 t ht
    rw [hs θ hθ] at hs'
    obtain rfl := Option.some.inj hs'
    exact h4
  refine ⟨fun m hm i => (hk.m i).congr fun θ hθ => ?_, fun L hL i j => (hk.P i j).congr fun θ hθ => ?_,
    fun hlow l hl => hk.l.congr fun θ hθ => (key θ hθ).2.2 (hlow θ hθ) _ (hl θ hθ)⟩
  · have := (key θ hθ).1
    rw [hm θ hθ] at this
    exact congrFun (Option.some.inj this) i
  · obtain ⟨L', h1, h2⟩ := (key θ hθ).2.1
    rw [hL θ hθ] at h1
    have h3 : L θ * (L θ)ᵀ = (Kalman.kfAt (cb θ) u₀ us t).P := by rw [Option.some.inj h1, h2]
    exact congrFun (congrFun h3 i) j

/-! ## Smoother -/

/-- The recursion of Rauch, Tung and Striebel for the mean and covariance at the beginning of the steps. -/
def rts (k : KF nx) : List (Step nx ny) → (Fin nx → ℝ) × Matrix (Fin nx) (Fin nx) ℝ
  | [] => (k.m, k.P)
  | s :: ss =>
    (condMean k.m k.P s.F s.c (s.cholQ * s.cholQᵀ) (rts (kfStep k s) ss).1,
      k.P * s.Fᵀ * (innovCov k.P s.F (s.cholQ * s.cholQᵀ))⁻¹ * (rts (kfStep k s) ss).2 *
        (k.P * s.Fᵀ * (innovCov k.P s.F (s.cholQ * s.cholQᵀ))⁻¹)ᵀ + condCov k.P s.F (s.cholQ * s.cholQᵀ))

theorem backMarg_rts : ∀ (ss : List (Step nx ny)) (k : KF nx) (bs : List (BStep nx)) (mT : Fin nx → ℝ)
    (LT : Matrix (Fin nx) (Fin nx) ℝ), IsBackwardChain k ss bs → mT = (ss.foldl kfStep k).m →
    LT * LTᵀ = (ss.foldl kfStep k).P → backMarg mT LT bs = rts k ss
  | [], k, [], mT, LT, _, hm, hL => Prod.ext hm hL
  | s :: ss, k, b :: bs, mT, LT, hc, hm, hL => by
    rw [backMarg, backMarg_rts ss (kfStep k s) bs mT LT hc.2 hm hL, rts, hc.1.mean, hc.1.gain, hc.1.cov]
  | [], _, _ :: _, _, _, hc, _, _ => hc.elim
  | _ :: _, _, [], _, _, hc, _, _ => hc.elim

/-- The predictive covariances along the run are nonsingular. -/
def PredDet : KF nx → List (Step nx ny) → Prop
  | _, [] => True
  | k, s :: ss => (innovCov k.P s.F (s.cholQ * s.cholQᵀ)).det ≠ 0 ∧ PredDet (kfStep k s) ss

theorem _root_.Cuthbert.IsBackwardChain.predDet : ∀ {ss : List (Step nx ny)} {k : KF nx} {bs : List (BStep nx)},
    IsBackwardChain k ss bs → PredDet k ss
  | [], _, _, _ => trivial
  | _ :: _, _, _ :: _, hc => ⟨hc.1.det, IsBackwardChain.predDet hc.2⟩
  | _ :: _, _, [], hc => hc.elim

theorem smooth_rts : ∀ (σ : List (E → Step nx ny)) {k : E → KF nx}, SmoothKF n U k → (∀ θ ∈ U, IsGram (k θ).P) →
    (∀ s ∈ σ, SmoothStep n U s) → (∀ s ∈ σ, ∀ θ ∈ U, (s θ).R.det ≠ 0) →
    (∀ θ ∈ U, PredDet (k θ) (σ.map (· θ))) →
    (SmoothVec n U fun θ => (rts (k θ) (σ.map (· θ))).1) ∧ SmoothMat n U fun θ => (rts (k θ) (σ.map (· θ))).2
  | [], _, hk, _, _, _, _ => ⟨hk.m, hk.P⟩
  | s :: σ, k, hk, hg, hs, hR, hd => by
    have h0 := hR s List.mem_cons_self
    have hs0 := hs s List.mem_cons_self
    obtain ⟨ih1, ih2⟩ := smooth_rts σ (hk.step hg hs0 h0)
      (fun θ hθ => Kalman.kfStep_gram (k θ) (hg θ hθ) (s θ) (h0 θ hθ))
      (fun s' h' => hs s' (List.mem_cons_of_mem _ h')) (fun s' h' => hR s' (List.mem_cons_of_mem _ h'))
      fun θ hθ => (hd θ hθ).2
    have hQ := hs0.cholQ.mul hs0.cholQ.transpose
    have hdet := fun θ hθ => (hd θ hθ).1
    have hG := (hk.P.mul hs0.F.transpose).mul ((smooth_innovCov hk.P hs0.F hQ).inv hdet)
    exact ⟨smooth_condMean hk.m hk.P hs0.F hs0.c hQ ih1 hdet,
      ((hG.mul ih2).mul hG.transpose).add (smooth_condCov hk.P hs0.F hQ hdet)⟩

/-- **C106**, Kalman smoother. -/
theorem kalman_smoother_smooth (qr : QR) (rng rng' : Prng K) (cb : E → Callbacks nx ny Inp) (u₀ : Inp) (us : List Inp)
    (hus : us ≠ []) (parallel parallel' : Bool) (key key' : Option K) (opts : SmootherOpts nx Inp)
    (h : SmoothModel n U cb u₀ us) (hR : ∀ θ ∈ U, ∀ u ∈ us, (stepOf (cb θ) u).R.det ≠ 0)
    (filterStates : E → List (FilterState nx Inp))
    (hf : ∀ θ ∈ U, (filter rng (buildFilter qr (cb θ)) (u₀ :: us) parallel key).result = .ok (filterStates θ))
    (hP : ∀ θ ∈ U, ∀ (t : ℕ) s L u, (filterStates θ)[t]? = some s → s.cholCov = some L → us[t]? = some u →
      ((stepOf (cb θ) u).F * (L * Lᵀ) * ((stepOf (cb θ) u).F)ᵀ +
        (stepOf (cb θ) u).cholQ * ((stepOf (cb θ) u).cholQ)ᵀ).det ≠ 0)
    (states : E → List (SmootherState nx Inp))
    (hsm : ∀ θ ∈ U, (smoother rng' FilterState.modelInputs (fun u => .ok (opts.dummy u))
        (buildSmoother qr (cb θ).getDynamics opts) (filterStates θ) none parallel' key').result = .ok (states θ))
    (t : ℕ) (s : E → SmootherState nx Inp) (hs : ∀ θ ∈ U, (states θ)[t]? = some (s θ)) :
    (∀ m, (∀ θ ∈ U, (s θ).mean = some (m θ)) → SmoothVec n U m) ∧
      ∀ L : E → Matrix (Fin nx) (Fin nx) ℝ, (∀ θ ∈ U, (s θ).cholCov = some (L θ)) → SmoothMat n U fun θ => L θ * (L θ)ᵀ := by
  have e : ∀ θ, (us.drop t).map (stepOf (cb θ)) = ((us.drop t).map fun u η => stepOf (cb η) u).map (· θ) := fun θ => by
    simp [Function.comp_def]
  have key : ∀ θ ∈ U, ∃ L, (s θ).mean = some (rts (Kalman.kfAt (cb θ) u₀ us t) ((us.drop t).map (stepOf (cb θ)))).1 ∧
      (s θ).cholCov = some L ∧ L * Lᵀ = (rts (Kalman.kfAt (cb θ) u₀ us t) ((us.drop t).map (stepOf (cb θ)))).2 ∧
      PredDet (Kalman.kfAt (cb θ) u₀ us t) ((us.drop t).map (stepOf (cb θ))) := by
    intro θ hθ
    obtain ⟨st, LT, h1, h2, h3, h4⟩ := smoother_run_facts qr rng rng' (cb θ) u₀ us hus parallel parallel' key key' opts
      (fun u hu => ScanOk.of_R _ (hR θ hθ u hu)) (filterStates θ) (hf θ hθ) (hP θ hθ) none (.inl rfl)
    rw [hsm θ hθ, Except.ok.injEq] at h1
    subst h1
    have ht : t ≤ us.length := by
      have := (List.getElem?_eq_some_iff.mp (hs θ hθ)).1
      omega
    obtain ⟨s', e, bs, h5, h6, h7, h8, -⟩ := h4 t ht
    rw [hs θ hθ, Option.some.injEq] at h5
    subst h5
    have hfold : Kalman.kfAt (cb θ) u₀ us us.length =
        ((us.drop t).map (stepOf (cb θ))).foldl kfStep (Kalman.kfAt (cb θ) u₀ us t) := by
      rw [Kalman.kfAt, Kalman.kfAt, ← List.foldl_append, ← List.map_append, List.take_append_drop, List.take_length]
    rw [backMarg_rts _ _ bs _ LT h7 (by rw [hfold]) (by rw [h3, hfold])] at h8
    simp only [sForm, SElem.mk.injEq] at h8
    exact ⟨e.D, by simp [SmootherState.mean, h6, h8.1], by simp [SmootherState.cholCov, h6], h8.2.2, h7.predDet⟩
  have hk := h.kfAt hR t
  obtain ⟨r1, r2⟩ := smooth_rts (n := n) (U := U) ((us.drop t).map fun u η => stepOf (cb η) u) hk
    (fun θ hθ => kfAt_gram (cb θ) u₀ us (hR θ hθ) t)
    (fun s' hs' => by
      obtain ⟨u, hu, rfl⟩ := List.mem_map.mp hs'
      exact h.step u (List.mem_of_mem_drop hu))
    (fun s' hs' θ hθ => by
      obtain ⟨u, hu, rfl⟩ := List.mem_map.mp hs'
      exact hR θ hθ u (List.mem_of_mem_drop hu))
    (fun θ hθ => by
      obtain ⟨-, -, -, -, hd⟩ := key θ hθ
      rwa [e] at hd)
  simp only [← e] at r1 r2
  refine ⟨fun m hm i => (r1 i).congr fun θ hθ => ?_, fun L hL i j => (r2 i j).congr fun θ hθ => ?_⟩
  · obtain ⟨-, h1, -⟩ := key θ hθ
    rw [hm θ hθ] at h1
    exact congrFun (Option.some.inj h1) i
  · obtain ⟨L', -, h1, h2, -⟩ := key θ hθ
    rw [hL θ hθ] at h1
    have h3 : L θ * (L θ)ᵀ = (rts (Kalman.kfAt (cb θ) u₀ us t) ((us.drop t).map (stepOf (cb θ)))).2 := by
      rw [Option.some.inj h1, h2]
    exact congrFun (congrFun h3 i) j

/-! ## The score -/

/-- The expected Gaussian log density with a residual that is a combination of square-integrable variables. -/
theorem smooth_expectation {Ω ι κ : Type*} [MeasurableSpace Ω] [Fintype ι] [DecidableEq ι] [Fintype κ] (μ : Measure Ω)
    [IsProbabilityMeasure μ] {w : κ → Ω → ℝ} (hw : ∀ p, MemLp (w p) 2 μ) {m y : E → Ω → ι → ℝ} {S : E → Matrix ι ι ℝ}
    {D : E → Matrix ι κ ℝ} (hr : ∀ θ ω i, y θ ω i - m θ ω i = ∑ p, D θ i p * w p ω) (hS : SmoothMat n U S)
    (hdet : ∀ θ ∈ U, (S θ).det ≠ 0) (hD : SmoothMat n U D) :
    ContDiffOn ℝ n (fun θ => ∫ ω, gaussLogDensity (m θ ω) (S θ) (y θ ω) ∂μ) U := by
  have hint : ∀ p q, Integrable (fun ω => w p ω * w q ω) μ := fun p q => (hw p).integrable_mul (hw q)
  have e : ∀ θ, ∫ ω, gaussLogDensity (m θ ω) (S θ) (y θ ω) ∂μ =
      -(1 / 2) * (∑ i, ∑ j, ∑ p, ∑ q, (S θ)⁻¹ i j * D θ i p * D θ j q * ∫ ω, w p ω * w q ω ∂μ) -
        (Fintype.card ι / 2 * Real.log (2 * Real.pi) + 1 / 2 * Real.log (S θ).det) := by
    intro θ
    have e1 : ∀ ω, gaussLogDensity (m θ ω) (S θ) (y θ ω) =
        -(1 / 2) * (∑ i, ∑ j, ∑ p, ∑ q, (S θ)⁻¹ i j * D θ i p * D θ j q * (w p ω * w q ω)) -
          (Fintype.card ι / 2 * Real.log (2 * Real.pi) + 1 / 2 * Real.log (S θ).det) := by
      intro ω
      have h1 : (y θ ω - m θ ω) ⬝ᵥ (S θ)⁻¹ *ᵥ (y θ ω - m θ ω) =
          ∑ i, ∑ j, ∑ p, ∑ q, (S θ)⁻¹ i j * D θ i p * D θ j q * (w p ω * w q ω) := by
        simp only [dotProduct, Matrix.mulVec, Pi.sub_apply, hr, Finset.mul_sum, Finset.sum_mul]
        refine Finset.sum_congr rfl fun i _ => Finset.sum_congr rfl fun j _ => ?_
        rw [Finset.sum_comm]
        refine Finset.sum_congr rfl fun p _ => Finset.sum_congr rfl fun q _ => ?_
        ring
      rw [gaussLogDensity, h1]
      ring
    have i4 : ∀ i j p q, Integrable (fun ω => (S θ)⁻¹ i j * D θ i p * D θ j q * (w p ω * w q ω)) μ :=
      fun i j p q => (hint p q).const_mul _
    have i3 : ∀ i j p, Integrable (fun ω => ∑ q, (S θ)⁻¹ i j * D θ i p * D θ j q * (w p ω * w q ω)) μ :=
      fun i j p => integrable_finsetSum _ fun q _ => i4 i j p q
    have i2 : ∀ i j, Integrable (fun ω => ∑ p, ∑ q, (S θ)⁻¹ i j * D θ i p * D θ j q * (w p ω * w q ω)) μ :=
      fun i j => integrable_finsetSum _ fun p _ => i3 i j p
    have i1 : ∀ i, Integrable (fun ω => ∑ j, ∑ p, ∑ q, (S θ)⁻¹ i j * D θ i p * D θ j q * (w p ω * w q ω)) μ :=
      fun i => integrable_finsetSum _ fun j _ => i2 i j
    have i0 : Integrable (fun ω => ∑ i, ∑ j, ∑ p, ∑ q, (S θ)⁻¹ i j * D θ i p * D θ j q * (w p ω * w q ω)) μ :=
      integrable_finsetSum _ fun i _ => i1 i
    simp only [e1]
    rw [integral_sub (i0.const_mul _) (integrable_const _), integral_const_mul, integral_finsetSum _ fun i _ => i1 i]
    simp only [integral_finsetSum _ fun j _ => i2 _ j, integral_finsetSum _ fun p _ => i3 _ _ p,
      integral_finsetSum _ fun q _ => i4 _ _ _ q, integral_const_mul, integral_const, probReal_univ, one_smul]
  simp only [e]
  refine ContDiffOn.sub (contDiffOn_const.mul ?_) (contDiffOn_const.add (contDiffOn_const.mul (hS.det.log hdet)))
  refine ContDiffOn.sum fun i _ => ContDiffOn.sum fun j _ => ContDiffOn.sum fun p _ => ContDiffOn.sum fun q _ => ?_
  exact (((hS.inv hdet i j).mul (hD i p)).mul (hD j q)).mul contDiffOn_const

theorem memLp_option {ι : Type*} [Fintype ι] (m : ι → ℝ) {κ : Type*} [Fintype κ] (L : Matrix ι κ ℝ) (p : Option ι) :
    MemLp (fun z : ι → ℝ => p.elim 1 z) 2 (gauss m L) := by
  cases p with
  | none => exact memLp_const _
  | some i => exact memLp_gauss_coord m L i

theorem smooth_emSteps : ∀ (σ : List (E → Step nx ny)) (q : ℕ → Smoothed nx), (∀ s ∈ σ, SmoothStep n U s) →
    (∀ s ∈ σ, ∀ θ ∈ U, (s θ).R.det ≠ 0 ∧ (s θ).cholQ.det ≠ 0) →
    ContDiffOn ℝ n (fun θ => emSteps (σ.map (· θ)) q) U
  | [], _, _, _ => contDiffOn_const
  | s :: σ, q, hs, hdet => by
    have hs0 := hs s List.mem_cons_self
    have hd0 := hdet s List.mem_cons_self
    have ih := smooth_emSteps σ (fun n => q (n + 1)) (fun s' h' => hs s' (List.mem_cons_of_mem _ h'))
      fun s' h' => hdet s' (List.mem_cons_of_mem _ h')
    have hpr : IsProbabilityMeasure ((q 0).joint (q 1)) := by unfold Smoothed.joint; infer_instance
    refine ContDiffOn.add (ContDiffOn.add ?_ ?_) ih
    · refine smooth_expectation (κ := Option (Fin nx ⊕ Fin nx)) ((q 0).joint (q 1))
        (w := fun p z => p.elim 1 z) (memLp_option _ _)
        (m := fun θ z => (s θ).F *ᵥ (fun i => z (.inr i)) + (s θ).c) (y := fun _ z i => z (.inl i))
        (D := fun θ => Matrix.of fun i p => p.elim (-(s θ).c i) (Sum.elim (fun j => (1 : Matrix (Fin nx) (Fin nx) ℝ) i j)
          fun j => -(s θ).F i j)) (fun θ z i => ?_) (hs0.cholQ.mul hs0.cholQ.transpose) (fun θ hθ => ?_) (fun i p => ?_)
      · simp [Fintype.sum_option, Fintype.sum_sum_type, Matrix.mulVec, dotProduct, Matrix.one_apply]
        ring
      · rw [Matrix.det_mul, Matrix.det_transpose]
        exact mul_ne_zero (hd0 θ hθ).2 (hd0 θ hθ).2
      · rcases p with _ | j | j
        · exact (hs0.c i).neg
        · exact contDiffOn_const
        · exact (hs0.F i j).neg
    · obtain ⟨y, hy⟩ := hs0.y
      have hss : ∀ θ, s θ = ⟨(s θ).F, (s θ).c, (s θ).cholQ, (s θ).H, (s θ).d, (s θ).cholR, y⟩ := fun θ => by rw [← hy θ]
      have hL : SmoothMat n U fun θ => obsL y (s θ).cholR := fun i j => hs0.cholR i.1 j
      have h := smooth_expectation (n := n) (U := U) (κ := Option (Fin nx)) (gauss (q 1).m (q 1).L)
        (w := fun p z => p.elim 1 z) (memLp_option _ _)
        (m := fun θ x => obsH y (s θ).H *ᵥ x + obsV y (s θ).d) (y := fun _ _ => obsY y)
        (D := fun θ => Matrix.of fun i p => p.elim (obsY y i - obsV y (s θ).d i) fun j => -obsH y (s θ).H i j)
        (S := fun θ => obsL y (s θ).cholR * (obsL y (s θ).cholR)ᵀ) (fun θ z i => by
          simp [Fintype.sum_option, Matrix.mulVec, dotProduct]
          ring) (hL.mul hL.transpose) (fun θ hθ => by
          have h1 := (hd0 θ hθ).1
          rw [hss θ] at h1
          exact h1) (fun i p => by
          cases p with
          | none => exact contDiffOn_const.sub (hs0.d i.1)
          | some j => exact (hs0.H i.1 j).neg)
      refine h.congr fun θ _ => ?_
      have e : expObservation (s θ) (gauss (q 1).m (q 1).L) =
          expObservation ⟨(s θ).F, (s θ).c, (s θ).cholQ, (s θ).H, (s θ).d, (s θ).cholR, y⟩ (gauss (q 1).m (q 1).L) := by
        rw [← hss θ]
      exact e

/-- The objective of an EM step is a smooth function of the model. -/
theorem SmoothModel.objective {cb : E → Callbacks nx ny Inp} {u₀ : Inp} {us : List Inp} (h : SmoothModel n U cb u₀ us)
    (hn : ∀ θ ∈ U, Nondegenerate (cb θ) u₀ us) (q : ℕ → Smoothed nx) :
    ContDiffOn ℝ n (fun θ => objectiveOf (cb θ) u₀ us q) U := by
  have e : ∀ θ, us.map (stepOf (cb θ)) = (us.map fun u η => stepOf (cb η) u).map (· θ) := fun θ => by
    simp [Function.comp_def]
  simp only [objectiveOf, emObjective, e]
  refine ContDiffOn.add ?_ (smooth_emSteps _ q (fun s hs => ?_) fun s hs θ hθ => ?_)
  · refine smooth_expectation (κ := Option (Fin nx)) (gauss (q 0).m (q 0).L) (w := fun p z => p.elim 1 z) (memLp_option _ _)
      (m := fun θ _ => ((cb θ).getInit u₀).1) (y := fun _ x => x)
      (D := fun θ => Matrix.of fun i p => p.elim (-((cb θ).getInit u₀).1 i) fun j => (1 : Matrix (Fin nx) (Fin nx) ℝ) i j)
      (fun θ z i => ?_) (h.chol.mul h.chol.transpose) (fun θ hθ => ?_) (fun i p => ?_)
    · simp [Fintype.sum_option, Matrix.one_apply]
      ring
    · rw [Matrix.det_mul, Matrix.det_transpose]
      exact mul_ne_zero (hn θ hθ).det_init (hn θ hθ).det_init
    · cases p with
      | none => exact (h.mean i).neg
      | some j => exact contDiffOn_const
  · obtain ⟨u, hu, rfl⟩ := List.mem_map.mp hs
    exact h.step u hu
  · obtain ⟨u, hu, rfl⟩ := List.mem_map.mp hs
    exact ⟨(hn θ hθ).obs u hu, (hn θ hθ).trans u hu⟩

/-- **C106** (the score). Along every differentiable curve of models the reported log likelihood is differentiable, and at
the parameter under which the smoother ran its derivative is that of the EM objective of the smoothing states. -/
theorem kalman_score (qr : QR) (rng rng' : Prng K) (cb : ℝ → Callbacks nx ny Inp) (θ : ℝ) (u₀ : Inp) (us : List Inp)
    (hus : us ≠ []) (parallel parallel' : Bool) (key key' : Option K) (opts : SmootherOpts nx Inp)
    (hG : opts.storeGain = true) (hV : opts.storeCholCovGivenNext = true) (h : ∀ η, Nondegenerate (cb η) u₀ us)
    (hc : SmoothModel 1 Set.univ cb u₀ us) {filterStates : List (FilterState nx Inp)}
    (hf : (filter rng (buildFilter qr (cb θ)) (u₀ :: us) parallel key).result = .ok filterStates)
    {states : List (SmootherState nx Inp)}
    (hs : (smoother rng' FilterState.modelInputs (fun u => .ok (opts.dummy u))
        (buildSmoother qr (cb θ).getDynamics opts) filterStates none parallel' key').result = .ok states) :
    ∃ q l b, Reports states us.length q ∧
      (∀ η, ∃ fs s, (filter rng (buildFilter qr (cb η)) (u₀ :: us) parallel key).result = .ok fs ∧
        fs[us.length]? = some s ∧ s.logNormalizingConstant = some (l η)) ∧
      HasDerivAt l b θ ∧ HasDerivAt (fun η => objectiveOf (cb η) u₀ us q) b θ := by
  have hrun : ∀ η, ∃ fs s l, (filter rng (buildFilter qr (cb η)) (u₀ :: us) parallel key).result = .ok fs ∧
      fs[us.length]? = some s ∧ s.logNormalizingConstant = some l := fun η => by
    obtain ⟨fs, h1, -⟩ := Linearize.kalman_run qr rng (cb η) u₀ us parallel key (h η).obs
    obtain ⟨s, l, h2, h3, -⟩ := evidence qr rng parallel key (h η) h1
    exact ⟨fs, s, l, h1, h2, h3⟩
  choose fs s l h1 h2 h3 using hrun
  have hl : ∀ η, ∃ fs s, (filter rng (buildFilter qr (cb η)) (u₀ :: us) parallel key).result = .ok fs ∧
      fs[us.length]? = some s ∧ s.logNormalizingConstant = some (l η) := fun η => ⟨_, _, h1 η, h2 η, h3 η⟩
  obtain ⟨q, hq, hgrad⟩ := kalman_em_gradient qr rng rng' cb θ u₀ us hus parallel parallel' key key' opts hG hV h hf hs l hl
  have hsm := (kalman_filter_smooth qr rng cb u₀ us parallel key hc (fun η _ => (h η).obs) fs (fun η _ => h1 η)
    us.length s fun η _ => h2 η).2.2 (fun η _ => (h η).lower) l fun η _ => h3 η
  have hd : ∀ {f : ℝ → ℝ}, ContDiffOn ℝ 1 f Set.univ → HasDerivAt f (deriv f θ) θ := fun hf =>
    ((contDiffOn_univ.mp hf).differentiable (by norm_num) θ).hasDerivAt
  have ho := hd (hc.objective (fun η _ => h η) q)
  refine ⟨q, l, _, hq, hl, hd hsm, ?_⟩
  rw [← hgrad _ _ ho (hd hsm)]
  exact ho

/-- Non-vacuity: the scalar model of C95 with a mean that is shifted by the parameter. -/
theorem shiftModel_smooth (us : List Unit) : SmoothModel n Set.univ (fun c : ℝ => shiftModel c) () us where
  mean _ := contDiffOn_const
  chol _ _ := contDiffOn_const
  step _ _ :=
    { F := fun _ _ => contDiffOn_const
      c := fun _ => contDiffOn_id
      cholQ := fun _ _ => contDiffOn_const
      H := fun _ _ => contDiffOn_const
      d := fun _ => contDiffOn_const
      cholR := fun _ _ => contDiffOn_const
      y := ⟨_, fun _ => rfl⟩ }

end

end Cuthbert.Kalman
