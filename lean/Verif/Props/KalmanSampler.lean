import Verif.Props.KalmanSmoother
import Verif.Lemmas.KalmanSample

/-!
# Theorems about the backward trajectory sampler (C33)
-/

namespace Cuthbert.Kalman
open MeasureTheory Matrix Cuthbert Cuthbert.Spec
open scoped ENNReal

noncomputable section

set_option linter.unusedSectionVars false

variable {nx ny : ℕ} {Inp K : Type*}

/-- **C33.** `sampling_operator` is associative, exactly. -/
theorem sampling_operator_assoc {N : ℕ} (a b c : SamplerElem nx N) :
    samplingOperator (samplingOperator a b) c = samplingOperator a (samplingOperator b c) := by
  have := samplingOperatorNan_assoc (some a) (some b) (some c)
  simpa only [samplingOperatorNan, Option.some.injEq] using this

/-- **C33** (pathwise). Whatever the noise, the sample at the last time is `m_T + L_T ε_T` and the one at
`t` is `E_t x_{t+1} + g_t + D_t ε_t`, row by row, with `(g_t, E_t, D_t)` the conditional law of
`smoother_element_is_conditional_law`. -/
theorem sampler_recursion (qr : QR) {N : ℕ} (steps : List (SamplerInput nx)) (mT : Fin nx → ℝ)
    (cholPT : Matrix (Fin nx) (Fin nx) ℝ) (eps : List (Matrix (Fin N) (Fin nx) ℝ))
    (hlen : eps.length = steps.length) (epsT : Matrix (Fin N) (Fin nx) ℝ) :
    let out := sampleTrajectories qr steps mT cholPT eps epsT
    out.length = steps.length + 1 ∧
    (∃ o, out[steps.length]? = some (some o) ∧ ∀ n, o.sample n = mT + cholPT *ᵥ epsT n) ∧
    ∀ (t : ℕ) i ε e o', steps[t]? = some i → eps[t]? = some ε →
      smootherParams qr i.m i.cholP i.F i.c i.cholQ = some e → out[t + 1]? = some (some o') →
      ∃ o, out[t]? = some (some o) ∧ ∀ n, o.sample n = e.E *ᵥ o'.sample n + e.g + e.D *ᵥ ε n := by
  intro out
  have hout : out = _ := sampleTrajectories_eq qr steps mT cholPT eps epsT
  have hrow : ∀ (A : Matrix (Fin N) (Fin nx) ℝ) (B : Matrix (Fin nx) (Fin nx) ℝ) n,
      (A * Bᵀ) n = B *ᵥ A n := by
    intro A B n
    funext i
    rw [Matrix.mul_apply]
    simp only [Matrix.mulVec, dotProduct, Matrix.transpose_apply]
    exact Finset.sum_congr rfl fun j _ => mul_comm _ _
  refine ⟨?_, ?_, ?_⟩
  · rw [hout, backFold_length]; simp [hlen]
  · refine ⟨samplerFinal mT cholPT epsT, ?_, fun n => ?_⟩
    · have h := backFold_getLast (fun n c => samplingOperatorNan c n) (some (samplerFinal mT cholPT epsT))
        (List.zipWith (fun s e => samplerInterm qr s.m s.cholP s.F s.c s.cholQ e) steps eps)
      rw [← hout, List.getLast?_eq_getElem?] at h
      have hl : out.length = steps.length + 1 := by rw [hout, backFold_length]; simp [hlen]
      rw [hl] at h
      exact h
    · change mT + (epsT * cholPTᵀ) n = _
      rw [hrow]
  · intro t i ε e o' hi hε he ho'
    have hz : (List.zipWith (fun s e => samplerInterm (N := N) qr s.m s.cholP s.F s.c s.cholQ e) steps
        eps)[t]? = some (some ⟨e.E, (Matrix.of fun _ => e.g) + ε * e.Dᵀ⟩) := by
      rw [List.getElem?_zipWith, hi, hε]
      simp only [samplerInterm, he]
      rfl
    rw [hout] at ho' ⊢
    have h := backFold_step _ _ _ t _ _ hz ho'
    refine ⟨_, h, fun n => ?_⟩
    change (o'.sample * e.Eᵀ) n + (e.g + (ε * e.Dᵀ) n) = _
    rw [hrow, hrow, add_assoc]

/-- The backward transitions computed by the sampler from a filter run. -/
theorem sampler_chain (qr : QR) (cb : Callbacks nx ny Inp) (u₀ : Inp) (us : List Inp)
    (steps : List (SamplerInput nx)) (hlen : steps.length = us.length)
    (hsteps : ∀ (t : ℕ) u i, us[t]? = some u → steps[t]? = some i → i.m = (kfAt cb u₀ us t).m ∧
      i.cholP * i.cholPᵀ = (kfAt cb u₀ us t).P ∧ i.F = (stepOf cb u).F ∧ i.c = (stepOf cb u).c ∧
      i.cholQ = (stepOf cb u).cholQ)
    (hP : ∀ (t : ℕ) u, us[t]? = some u → (predCov (kfAt cb u₀ us t) (stepOf cb u)).det ≠ 0) :
    ∀ n t, t + n = us.length → ∃ bs, bs.length = n ∧
      IsBackwardChain (kfAt cb u₀ us t) ((us.drop t).map (stepOf cb)) bs ∧
      List.Forall₂ (fun i b => smootherParams qr i.m i.cholP i.F i.c i.cholQ = some ⟨b.g, b.E, b.D⟩)
        (steps.drop t) bs := by
  intro n
  induction n with
  | zero =>
    intro t ht
    have htT : t = us.length := ht
    subst htT
    refine ⟨[], rfl, by rw [List.drop_length]; trivial, ?_⟩
    rw [← hlen, List.drop_length]
    exact List.Forall₂.nil
  | succ n ih =>
    intro t ht
    obtain ⟨bs, hbl, hch, hfa⟩ := ih (t + 1) (by omega)
    have htu : t < us.length := by omega
    have hts : t < steps.length := by omega
    have hut : us[t]? = some us[t] := List.getElem?_eq_getElem htu
    have hst : steps[t]? = some steps[t] := List.getElem?_eq_getElem hts
    obtain ⟨h1, h2, h3, h4, h5⟩ := hsteps t _ _ hut hst
    have hdet := hP t _ hut
    obtain ⟨e, he, -, hmean, hcov, -⟩ := smootherParams_eq qr steps[t].m steps[t].cholP steps[t].F
      steps[t].c steps[t].cholQ (by rw [h2, h3, h5]; exact hdet)
    refine ⟨bstep e :: bs, by simp [hbl], ?_, ?_⟩
    · rw [show us.drop t = us[t] :: us.drop (t + 1) from (List.getElem_cons_drop htu).symm, List.map_cons]
      refine ⟨⟨hdet, ?_, ?_⟩, ?_⟩
      · rw [← h1, ← h2, ← h3, ← h4, ← h5]; exact hmean
      · rw [← h2, ← h3, ← h5]; exact hcov
      · rw [← kfAt_succ cb u₀ us t _ hut]; exact hch
    · rw [show steps.drop t = steps[t] :: steps.drop (t + 1) from (List.getElem_cons_drop hts).symm]
      exact List.Forall₂.cons he hfa

/-- **C33** (law). Give the sampler the moments returned by a Kalman filter run (in either mode) and the
transition parameters, and standard normal noise `ω`. Then every row `n` of the output is the same
measurable function `path` of row `n` of the noise, and for independent standard normal noise the law of
`path` is the smoothing law `p(x_0..x_T | y_1..y_T)` of the whole trajectory. -/
theorem kalman_sampler_exact (qr : QR) (rng : Prng K) (cb : Callbacks nx ny Inp) (u₀ : Inp)
    (us : List Inp) (parallel : Bool) (key : Option K) (hR : ∀ u ∈ us, (stepOf cb u).R.det ≠ 0)
    (filterStates : List (FilterState nx Inp))
    (hf : (filter rng (buildFilter qr cb) (u₀ :: us) parallel key).result = .ok filterStates)
    (steps : List (SamplerInput nx)) (mT : Fin nx → ℝ) (cholPT : Matrix (Fin nx) (Fin nx) ℝ)
    (hlen : steps.length = us.length)
    (hsteps : ∀ (t : ℕ) u s i, us[t]? = some u → filterStates[t]? = some s → steps[t]? = some i →
      s.mean = some i.m ∧ s.cholCov = some i.cholP ∧ (i.F, i.c, i.cholQ) = cb.getDynamics u)
    (hlast : ∀ s, filterStates[us.length]? = some s → s.mean = some mT ∧ s.cholCov = some cholPT)
    (hP : ∀ i ∈ steps, (i.F * (i.cholP * i.cholPᵀ) * i.Fᵀ + i.cholQ * i.cholQᵀ).det ≠ 0) :
    ∃ (path : (Fin (us.length + 1) → Fin nx → ℝ) → ℕ → Fin nx → ℝ) (l : ℝ), Measurable path ∧
      (∀ {N : ℕ} (ω : Fin (us.length + 1) → Matrix (Fin N) (Fin nx) ℝ) (t : ℕ), t ≤ us.length →
        ∃ o, (sampleTrajectories qr steps mT cholPT (List.ofFn fun i : Fin us.length => ω i.castSucc)
          (ω (Fin.last _)))[t]? = some (some o) ∧ ∀ n, o.sample n = path (fun i => ω i n) t) ∧
      ∀ f : (ℕ → Fin nx → ℝ) → ℝ≥0∞, Measurable f →
        jointExp (cb.getInit u₀).1 (cb.getInit u₀).2 (us.map (stepOf cb)) f =
          ENNReal.ofReal (Real.exp l) * ∫⁻ ω, f (path ω) ∂Measure.pi fun _ => stdNormal (Fin nx) := by
  obtain ⟨hfl, -, hfs⟩ := filter_run_facts qr rng cb u₀ us parallel key
    (fun u hu => ScanOk.of_R _ (hR u hu)) filterStates hf
  have hst : ∀ (t : ℕ) u i, us[t]? = some u → steps[t]? = some i → i.m = (kfAt cb u₀ us t).m ∧
      i.cholP * i.cholPᵀ = (kfAt cb u₀ us t).P ∧ i.F = (stepOf cb u).F ∧ i.c = (stepOf cb u).c ∧
      i.cholQ = (stepOf cb u).cholQ := by
    intro t u i hu hi
    have ht : t < us.length := (List.getElem?_eq_some_iff.mp hu).1
    obtain ⟨s, e, hs, he, hr⟩ := hfs t ht.le
    obtain ⟨h1, h2, h3⟩ := hsteps t u s i hu hs hi
    simp only [FilterState.mean, FilterState.cholCov, he, Option.map_some, Option.some.injEq] at h1 h2
    have h3' := Prod.mk.inj h3
    have h3'' := Prod.mk.inj h3'.2
    exact ⟨h1 ▸ hr.b, h2 ▸ hr.C, h3'.1, h3''.1, h3''.2⟩
  have hpc : ∀ (t : ℕ) u, us[t]? = some u → (predCov (kfAt cb u₀ us t) (stepOf cb u)).det ≠ 0 := by
    intro t u hu
    have ht : t < us.length := (List.getElem?_eq_some_iff.mp hu).1
    have hts : t < steps.length := by omega
    have hi : steps[t]? = some steps[t] := List.getElem?_eq_getElem hts
    obtain ⟨-, h2, h3, -, h5⟩ := hst t u _ hu hi
    have := hP steps[t] (List.getElem_mem hts)
    rw [h2, h3, h5] at this
    exact this
  obtain ⟨bs, hbl, hch, hfa⟩ := sampler_chain qr cb u₀ us steps hlen hst hpc us.length 0 (Nat.zero_add _)
  obtain ⟨sT, eT, hsT, heT, hrT⟩ := hfs us.length le_rfl
  obtain ⟨hmT, hLT⟩ := hlast sT hsT
  simp only [FilterState.mean, FilterState.cholCov, heT, Option.map_some, Option.some.injEq] at hmT hLT
  have hm : mT = (kfAt cb u₀ us us.length).m := hmT ▸ hrT.b
  have hL : cholPT * cholPTᵀ = (kfAt cb u₀ us us.length).P := hLT ▸ hrT.C
  rw [List.drop_zero] at hfa
  obtain ⟨T, hT⟩ : ∃ T, T = us.length := ⟨_, rfl⟩
  rw [← hT]
  rw [← hT] at hbl
  subst hbl
  refine ⟨draw mT cholPT bs, (kfAt cb u₀ us us.length).l, measurable_draw mT cholPT bs, ?_, ?_⟩
  · intro N ω t ht
    obtain ⟨o, ho, hrow⟩ := backFold_draw mT cholPT bs ω t ht
    refine ⟨o, ?_, hrow⟩
    rw [sampleTrajectories_eq]
    have hz := samplerParams_eq qr mT cholPT (ω (Fin.last _)) steps bs
      (List.ofFn fun i : Fin bs.length => ω i.castSucc) hfa
    rw [samplerParams] at hz
    rw [List.append_cancel_right hz]
    exact ho
  · intro f hf'
    have h := jointExp_from cb u₀ us hR 0 (Nat.zero_le _) bs (by rw [List.drop_zero] at hch ⊢; exact hch)
      cholPT hL hf'
    rw [← hm] at h
    simp only [Nat.add_zero] at h
    rw [h, backExp_draw mT cholPT bs hf']

/-- **C33** (independence). Rows driven by independent noise are independent draws: the joint law of the
row functions is the product of their laws. -/
theorem sampler_rows_independent {N T : ℕ} (path : (Fin (T + 1) → Fin nx → ℝ) → ℕ → Fin nx → ℝ)
    (hpath : Measurable path) :
    (Measure.pi fun _ : Fin N => Measure.pi fun _ : Fin (T + 1) => stdNormal (Fin nx)).map
        (fun ω n => path (ω n)) =
      Measure.pi fun _ : Fin N => (Measure.pi fun _ : Fin (T + 1) => stdNormal (Fin nx)).map path := by
  have : ∀ n : Fin N, SigmaFinite ((Measure.pi fun _ : Fin (T + 1) => stdNormal (Fin nx)).map path) :=
    fun _ => by
      have := Measure.isProbabilityMeasure_map (μ := Measure.pi fun _ : Fin (T + 1) => stdNormal (Fin nx))
        hpath.aemeasurable
      infer_instance
  exact Measure.pi_map_pi (fun _ => hpath.aemeasurable)

/-- Non-vacuity for C33: inputs as required exist for every filter run with full-rank process and
observation noise. -/
example (qr : QR) (rng : Prng K) (key : Option K) :
    ∃ (filterStates : List (FilterState 1 Unit)) (steps : List (SamplerInput 1)) (mT : Fin 1 → ℝ)
      (cholPT : Matrix (Fin 1) (Fin 1) ℝ),
      (filter rng (buildFilter qr (scalarModel 1 1)) [(), ()] false key).result = .ok filterStates ∧
      steps.length = 1 ∧
      (∀ (t : ℕ) u s i, [()][t]? = some u → filterStates[t]? = some s → steps[t]? = some i →
        s.mean = some i.m ∧ s.cholCov = some i.cholP ∧
          (i.F, i.c, i.cholQ) = (scalarModel 1 1).getDynamics u) ∧
      (∀ s, filterStates[1]? = some s → s.mean = some mT ∧ s.cholCov = some cholPT) ∧
      ∀ i ∈ steps, (i.F * (i.cholP * i.cholPᵀ) * i.Fᵀ + i.cholQ * i.cholQᵀ).det ≠ 0 := by
  obtain ⟨states, hst, hlen, h1⟩ := kalman_filter_exact qr rng (scalarModel 1 1) () [()] false key
    fun u _ => scalarModel_R 1 1 u
  obtain ⟨s₀, m₀, L₀, -, hs₀, hm₀, hL₀, -⟩ := h1 0 (by simp)
  obtain ⟨s₁, m₁, L₁, -, hs₁, hm₁, hL₁, -⟩ := h1 1 (by simp)
  refine ⟨states, [⟨m₀, L₀, 1, fun _ => 0, Matrix.of fun _ _ => 1⟩], m₁, L₁, hst, rfl, ?_, ?_, ?_⟩
  · intro t u s i hu hs hi
    match t with
    | 0 =>
      rw [hs₀, Option.some.injEq] at hs
      simp only [List.getElem?_cons_zero, Option.some.injEq] at hi
      subst hs; subst hi
      exact ⟨hm₀, hL₀, rfl⟩
    | t + 1 => simp at hu
  · intro s hs
    rw [hs₁, Option.some.injEq] at hs
    subst hs
    exact ⟨hm₁, hL₁⟩
  · intro i hi
    rw [List.mem_singleton] at hi
    subst hi
    rw [add_comm]
    exact (isGram_of _).det_add_ne_zero (by simp [Matrix.mul_apply]) ((isGram_of L₀).conj 1)

end

end Cuthbert.Kalman
