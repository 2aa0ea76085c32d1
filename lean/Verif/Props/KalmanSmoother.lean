import Verif.Props.KalmanExact
import Verif.Lemmas.KalmanSmooth

/-!
# Theorems about the Kalman smoother (C28 to C31)
-/

namespace Cuthbert.Kalman
open MeasureTheory Matrix Cuthbert Cuthbert.Spec
open scoped ENNReal

noncomputable section

set_option linter.unusedSectionVars false

variable {nx ny : ℕ} {Inp K : Type*}

/-! ## C28 -/

/-- **C28** (the scan element). Drawing `x ~ N(m, P)` and then `x' ~ N(F x + c, Q)` is the same as drawing
`x'` from the law returned by `predict` and then `x ~ N(E x' + g, D Dᵀ)`: the element returned by
`associative_params_single` is the conditional law of `x_t` given `x_{t+1}`. -/
theorem smoother_element_is_conditional_law (qr : QR) (m : Fin nx → ℝ)
    (cholP F : Matrix (Fin nx) (Fin nx) ℝ) (c : Fin nx → ℝ) (cholQ : Matrix (Fin nx) (Fin nx) ℝ)
    (hS : (F * (cholP * cholPᵀ) * Fᵀ + cholQ * cholQᵀ).det ≠ 0) :
    ∃ e, smootherParams qr m cholP F c cholQ = some e ∧
      ∀ f : (Fin nx → ℝ) × (Fin nx → ℝ) → ℝ≥0∞, Measurable f →
        ∫⁻ x, ∫⁻ x', f (x', x) ∂gauss (F *ᵥ x + c) cholQ ∂gauss m cholP =
          ∫⁻ x', ∫⁻ x, f (x', x) ∂gauss (e.E *ᵥ x' + e.g) e.D
            ∂gauss (predict qr m cholP F c cholQ).1 (predict qr m cholP F c cholQ).2 := by
  obtain ⟨e, he, hE, hmean, hcov, -⟩ := smootherParams_eq qr m cholP F c cholQ hS
  refine ⟨e, he, fun f hf => ?_⟩
  obtain ⟨g1, g2⟩ := gain_eqs F (isGram_of cholP) (isGram_of cholQ) hS
  have hW := predict_gram qr m cholP F c cholQ
  have h := gauss_disint m cholP F c cholQ (predict qr m cholP F c cholQ).2
    (cholP * cholPᵀ * Fᵀ * (innovCov (cholP * cholPᵀ) F (cholQ * cholQᵀ))⁻¹) e.D hW
    (by rw [hW]; exact g1) (by rw [hW, hcov]; exact g2) hf
  rw [h]
  have hm : ∀ x', m + (cholP * cholPᵀ * Fᵀ * (innovCov (cholP * cholPᵀ) F (cholQ * cholQᵀ))⁻¹) *ᵥ
      (x' - (F *ᵥ m + c)) = e.E *ᵥ x' + e.g := by
    intro x'
    rw [hmean, condMean]
    simp only [Matrix.mulVec_mulVec, Matrix.mul_assoc]
  simp only [hm]
  rfl

/-- **C28.** The Rauch-Tung-Striebel step `update` returns the law of `x_t` when `x_{t+1} ~ N(ms, Ps)` and
`x_t` given `x_{t+1}` is the conditional law above; its gain is the scan element's, and combining that
element with the next smoothing state by `smoothing_operator` gives the same mean and covariance. -/
theorem smoother_update_exact (qr : QR) (m : Fin nx → ℝ) (cholP : Matrix (Fin nx) (Fin nx) ℝ)
    (ms : Fin nx → ℝ) (cholPs F : Matrix (Fin nx) (Fin nx) ℝ) (c : Fin nx → ℝ)
    (cholQ : Matrix (Fin nx) (Fin nx) ℝ)
    (hS : (F * (cholP * cholPᵀ) * Fᵀ + cholQ * cholQᵀ).det ≠ 0) :
    ∃ mean chol gain e, smootherUpdate qr m cholP ms cholPs F c cholQ = some ((mean, chol), gain) ∧
      smootherParams qr m cholP F c cholQ = some e ∧ gain = e.E ∧
      (gauss ms cholPs).bind (fun x' => gauss (e.E *ᵥ x' + e.g) e.D) = gauss mean chol ∧
      IsLower chol ∧
      ∀ E', (smoothingOperator qr ⟨ms, E', cholPs⟩ e).g = mean ∧
        (smoothingOperator qr ⟨ms, E', cholPs⟩ e).D * (smoothingOperator qr ⟨ms, E', cholPs⟩ e).Dᵀ =
          chol * cholᵀ := by
  obtain ⟨e, he, hE, hmean, hcov, -⟩ := smootherParams_eq qr m cholP F c cholQ hS
  obtain ⟨mean, chol, gain, hu, hg, hm, hc, hl⟩ := smootherUpdate_eq qr m cholP ms cholPs F c cholQ hS
  have hge : gain = e.E := hg.trans hE.symm
  have hme : e.E *ᵥ ms + e.g = mean := (hmean ms).trans hm.symm
  have hce : chol * cholᵀ = e.E * (cholPs * cholPsᵀ) * e.Eᵀ + e.D * e.Dᵀ := by rw [hc, hcov, hge]
  refine ⟨mean, chol, gain, e, hu, he, hge, ?_, hl, fun E' => ⟨hme, ?_⟩⟩
  · refine measure_ext_lintegral fun f hf => ?_
    rw [Measure.lintegral_bind (measurable_gauss_kernel e.E e.g e.D).aemeasurable hf.aemeasurable,
      ← hme]
    exact gauss_predict ms cholPs e.E e.g e.D hce hf
  · rw [smoothingOperator_gram, hce]

/-- **C28** (the exception). With a singular predictive covariance both give non-finite results. -/
theorem smoother_singular (qr : QR) (m : Fin nx → ℝ) (cholP : Matrix (Fin nx) (Fin nx) ℝ)
    (ms : Fin nx → ℝ) (cholPs F : Matrix (Fin nx) (Fin nx) ℝ) (c : Fin nx → ℝ)
    (cholQ : Matrix (Fin nx) (Fin nx) ℝ)
    (hS : (F * (cholP * cholPᵀ) * Fᵀ + cholQ * cholQᵀ).det = 0) :
    smootherUpdate qr m cholP ms cholPs F c cholQ = none ∧ smootherParams qr m cholP F c cholQ = none :=
  ⟨smootherUpdate_none qr m cholP ms cholPs F c cholQ hS, smootherParams_none qr m cholP F c cholQ hS⟩

/-- Non-vacuity for C28: full-rank process noise meets the hypothesis, as does an invertible transition of
a full-rank state with no process noise. -/
example (cholP F cholQ : Matrix (Fin nx) (Fin nx) ℝ) :
    ((cholQ * cholQᵀ).det ≠ 0 → (F * (cholP * cholPᵀ) * Fᵀ + cholQ * cholQᵀ).det ≠ 0) ∧
    (F.det ≠ 0 → cholP.det ≠ 0 → (F * (cholP * cholPᵀ) * Fᵀ + 0 * (0 : Matrix (Fin nx) (Fin nx) ℝ)ᵀ).det
      ≠ 0) := by
  constructor
  · intro h
    rw [add_comm]
    exact (isGram_of cholQ).det_add_ne_zero h ((isGram_of cholP).conj F)
  · intro h h'
    simp only [Matrix.zero_mul, add_zero, Matrix.det_mul, Matrix.det_transpose]
    exact mul_ne_zero (mul_ne_zero h (mul_ne_zero h' h')) h

/-! ## C29 -/

/-- **C29.** `smoothing_operator` is associative up to the choice of square root, for all elements. -/
theorem smoothing_operator_assoc (qr : QR) (a b c : SmootherElem nx) :
    let l := smoothingOperator qr (smoothingOperator qr a b) c
    let r := smoothingOperator qr a (smoothingOperator qr b c)
    l.g = r.g ∧ l.E = r.E ∧ l.D * l.Dᵀ = r.D * r.Dᵀ := by
  have h : sForm (smoothingOperator qr (smoothingOperator qr a b) c) =
      sForm (smoothingOperator qr a (smoothingOperator qr b c)) := by
    simp only [sForm_op, SElem.op_assoc]
  simp only [sForm, SElem.mk.injEq] at h
  exact h

/-- **C29** (runs). On any filter states whatsoever the parallel smoother returns the means and covariances
of the sequential one (NaN at the same places), and exactly the same stored gains, conditional factors and
model inputs. -/
theorem kalman_smoother_parallel (qr : QR) (rng : Prng K) (inputsOf : FilterState nx Inp → Inp)
    (dummy : Inp → Except Err Inp)
    (getDynamics : Inp → Matrix (Fin nx) (Fin nx) ℝ × (Fin nx → ℝ) × Matrix (Fin nx) (Fin nx) ℝ)
    (opts : SmootherOpts nx Inp) (filterStates : List (FilterState nx Inp)) (inputs : List Inp)
    (hlen : inputs.length + 1 = filterStates.length) (key : Option K) :
    (smoother rng inputsOf dummy (buildSmoother qr getDynamics opts) filterStates (some inputs) true
      key).result.map (List.map fun s =>
        (s.mean, s.cholCov.map (fun L => L * Lᵀ), s.gain, s.cholCovGivenNext, s.modelInputs)) =
    (smoother rng inputsOf dummy (buildSmoother qr getDynamics opts) filterStates (some inputs) false
      key).result.map (List.map fun s =>
        (s.mean, s.cholCov.map (fun L => L * Lᵀ), s.gain, s.cholCovGivenNext, s.modelInputs)) := by
  have h := smoother_view_eq qr rng inputsOf dummy getDynamics opts filterStates inputs hlen key
  have key2 : ∀ r : Except Err (List (SmootherState nx Inp)),
      r.map (List.map fun s =>
        (s.mean, s.cholCov.map (fun L => L * Lᵀ), s.gain, s.cholCovGivenNext, s.modelInputs)) =
      (r.map (List.map sView)).map (List.map fun v =>
        (v.elem.map (·.g), v.elem.map (·.C), v.gain, v.cholCovGivenNext, v.modelInputs)) := by
    intro r
    cases r with
    | error e => rfl
    | ok l =>
      simp only [Except.map, List.map_map, Except.ok.injEq]
      refine List.map_congr_left fun s _ => ?_
      simp only [Function.comp_apply, sView, SmootherState.mean, SmootherState.cholCov, Option.map_map]
      rfl
  rw [key2, key2, h]
where
  smoother_view_eq (qr : QR) (rng : Prng K) (inputsOf : FilterState nx Inp → Inp)
    (dummy : Inp → Except Err Inp)
    (getDynamics : Inp → Matrix (Fin nx) (Fin nx) ℝ × (Fin nx → ℝ) × Matrix (Fin nx) (Fin nx) ℝ)
    (opts : SmootherOpts nx Inp) (filterStates : List (FilterState nx Inp)) (inputs : List Inp)
    (hlen : inputs.length + 1 = filterStates.length) (key : Option K) :
    (smoother rng inputsOf dummy (buildSmoother qr getDynamics opts) filterStates (some inputs) true
      key).result.map (List.map sView) =
    (smoother rng inputsOf dummy (buildSmoother qr getDynamics opts) filterStates (some inputs) false
      key).result.map (List.map sView) :=
  smoother_parallel_agrees_on_view rng inputsOf dummy (buildSmoother (K := K) qr getDynamics opts)
    filterStates inputs hlen key (fun _ => True) sView SView.op (fun _ _ _ _ => trivial)
    (fun _ _ _ _ _ _ => trivial) (fun _ _ _ _ => trivial) (fun a b _ _ => sView_combine qr a b)
    (fun _ _ _ _ _ _ => SView.op_assoc _ _ _)

/-- **C31** (which fields are present). In either mode every returned state, including the last, stores a gain
iff `store_gain` and a conditional factor iff `store_chol_cov_given_next`; in the last state both are dummies. -/
theorem kalman_smoother_fields (qr : QR) (rng : Prng K) (inputsOf : FilterState nx Inp → Inp)
    (dummy : Inp → Except Err Inp)
    (getDynamics : Inp → Matrix (Fin nx) (Fin nx) ℝ × (Fin nx → ℝ) × Matrix (Fin nx) (Fin nx) ℝ)
    (opts : SmootherOpts nx Inp) (filterStates : List (FilterState nx Inp)) (inputs : List Inp)
    (hlen : inputs.length + 1 = filterStates.length) (parallel : Bool) (key : Option K)
    (states : List (SmootherState nx Inp))
    (h : (smoother rng inputsOf dummy (buildSmoother qr getDynamics opts) filterStates (some inputs) parallel
      key).result = .ok states) :
    (∀ s ∈ states, s.gain.isSome = opts.storeGain ∧ s.cholCovGivenNext.isSome = opts.storeCholCovGivenNext) ∧
      ∀ s, states.getLast? = some s → s.gain = (if opts.storeGain then some (some opts.dummyMat) else none) ∧
        s.cholCovGivenNext = (if opts.storeCholCovGivenNext then some (some opts.dummyMat) else none) := by
  -- both claims are about the fields only, on which the modes agree
  obtain ⟨seq, hseq, hview⟩ : ∃ seq, (smoother rng inputsOf dummy (buildSmoother qr getDynamics opts) filterStates
      (some inputs) false key).result = .ok seq ∧
      states.map (fun s => (s.gain, s.cholCovGivenNext)) = seq.map fun s => (s.gain, s.cholCovGivenNext) := by
    cases parallel with
    | false => exact ⟨states, h, rfl⟩
    | true =>
      have h1 := kalman_smoother_parallel qr rng inputsOf dummy getDynamics opts filterStates inputs hlen key
      rw [h] at h1
      cases h2 : (smoother rng inputsOf dummy (buildSmoother qr getDynamics opts) filterStates (some inputs) false
        key).result with
      | error e => rw [h2] at h1; cases h1
      | ok seq =>
        rw [h2] at h1
        simp only [Except.map, Except.ok.injEq] at h1
        refine ⟨seq, rfl, ?_⟩
        have h3 := congrArg (List.map fun v => (v.2.2.1, v.2.2.2.1)) h1
        simpa only [List.map_map, Function.comp_def] using h3
  have hne : filterStates ≠ [] := by intro e; subst e; simp at hlen
  have key2 : (∀ s ∈ seq, s.gain.isSome = opts.storeGain ∧
        s.cholCovGivenNext.isSome = opts.storeCholCovGivenNext) ∧
      ∀ s, seq.getLast? = some s → s.gain = (if opts.storeGain then some (some opts.dummyMat) else none) ∧
        s.cholCovGivenNext = (if opts.storeCholCovGivenNext then some (some opts.dummyMat) else none) := by
    cases inputs with
    | nil =>
      rw [smoother_core_eq rng inputsOf dummy _ filterStates [] hlen, smootherCore] at hseq
      rw [List.getLast?_eq_some_getLast hne] at hseq
      cases hseq
    | cons u us =>
      cases hd : dummy u with
      | error e =>
        rw [smoother_core_eq rng inputsOf dummy _ filterStates _ hlen, smootherCore] at hseq
        rw [List.getLast?_eq_some_getLast hne] at hseq
        simp [hd] at hseq
      | ok d =>
        obtain ⟨seq', hseq', run⟩ := smoother_sequential_is_backward_run rng inputsOf dummy
          (buildSmoother (K := K) qr getDynamics opts) filterStates (u :: us) key hlen u rfl d hd
        rw [hseq, Except.ok.injEq] at hseq'
        subst hseq'
        have hlast := run.last _ (List.getLast?_eq_some_getLast hne)
        have h4 : ∀ s, seq.getLast? = some s →
            s.gain = (if opts.storeGain then some (some opts.dummyMat) else none) ∧
            s.cholCovGivenNext = (if opts.storeCholCovGivenNext then some (some opts.dummyMat) else none) := by
          intro s hs
          rw [hlast, Option.some.injEq] at hs
          rw [← hs]
          exact ⟨rfl, rfl⟩
        refine ⟨fun s hs => ?_, h4⟩
        obtain ⟨t, ht, hst⟩ := List.mem_iff_getElem.mp hs
        have hl := run.length_eq
        by_cases h5 : t + 1 < seq.length
        · have h6 := run.step t (filterStates[t]'(by omega)) ((u :: us)[t]'(by omega)) (seq[t + 1]'h5)
            (List.getElem?_eq_getElem _) (List.getElem?_eq_getElem _) (List.getElem?_eq_getElem _)
          rw [List.getElem?_eq_getElem ht, hst, Option.some.injEq] at h6
          rw [h6]
          constructor
          · change (smootherPrepare qr getDynamics opts _ _).gain.isSome = _
            unfold smootherPrepare
            dsimp only
            split_ifs with h7 <;> simp [h7]
          · change (smootherPrepare qr getDynamics opts _ _).cholCovGivenNext.isSome = _
            unfold smootherPrepare
            dsimp only
            split_ifs with h7 <;> simp [h7]
        · have h6 : seq.getLast? = some s := by
            rw [List.getLast?_eq_getElem?, show seq.length - 1 = t by omega, List.getElem?_eq_getElem ht, hst]
          obtain ⟨h7, h8⟩ := h4 s h6
          rw [h7, h8]
          constructor <;> split_ifs with h9 <;> simp [h9]
  constructor
  · intro s hs
    have h1 : (s.gain, s.cholCovGivenNext) ∈ states.map fun s => (s.gain, s.cholCovGivenNext) :=
      List.mem_map.mpr ⟨s, hs, rfl⟩
    rw [hview] at h1
    obtain ⟨s', hs', he⟩ := List.mem_map.mp h1
    obtain ⟨h2, h3⟩ := key2.1 s' hs'
    rw [Prod.mk.injEq] at he
    rw [← he.1, ← he.2]
    exact ⟨h2, h3⟩
  · intro s hs
    have h1 : (states.map fun s => (s.gain, s.cholCovGivenNext)).getLast? = some (s.gain, s.cholCovGivenNext) := by
      rw [List.getLast?_map, hs]
      rfl
    rw [hview, List.getLast?_map] at h1
    obtain ⟨s', hs', he⟩ := Option.map_eq_some_iff.mp h1
    obtain ⟨h2, h3⟩ := key2.2 s' hs'
    rw [Prod.mk.injEq] at he
    rw [← he.1, ← he.2]
    exact ⟨h2, h3⟩

/-! ## C30, C31 -/

/-- What a filter run returns, in covariance form. -/
theorem filter_run_facts (qr : QR) (rng : Prng K) (cb : Callbacks nx ny Inp) (u₀ : Inp) (us : List Inp)
    (parallel : Bool) (key : Option K) (hok : ∀ u ∈ us, ScanOk (stepOf cb u))
    (states : List (FilterState nx Inp))
    (h : (filter rng (buildFilter qr cb) (u₀ :: us) parallel key).result = .ok states) :
    states.length = us.length + 1 ∧ states.map FilterState.modelInputs = u₀ :: us ∧
      ∀ t ≤ us.length, ∃ s e, states[t]? = some s ∧ s.elem = some e ∧
        Repr e (kfAt cb u₀ us t).elem := by
  have hin : states.map FilterState.modelInputs = u₀ :: us := by
    obtain ⟨seq, hseq, hrun⟩ := filter_sequential_is_online_run rng (buildFilter (K := K) qr cb)
      (u₀ :: us) key (by simp)
    have hs : seq.map FilterState.modelInputs = u₀ :: us := by
      refine List.ext_getElem? fun t => ?_
      have hl := hrun.length_eq
      rw [List.getElem?_map]
      cases t with
      | zero => rw [hrun.first u₀ rfl]; rfl
      | succ t =>
        rcases Nat.lt_or_ge t us.length with ht | ht
        · have htl : t < seq.length := by simp at hl; omega
          have hp : seq[t]? = some seq[t] := List.getElem?_eq_getElem htl
          have hu : (u₀ :: us)[t + 1]? = some us[t] := by simp
          rw [hrun.step t _ _ hu hp, hu]
          rfl
        · rw [List.getElem?_eq_none (by simp at hl; omega), List.getElem?_eq_none (by simp; omega)]
          rfl
    cases parallel with
    | false =>
      rw [h, Except.ok.injEq] at hseq
      rw [hseq]; exact hs
    | true =>
      have hv := filter_parallel_agrees_on_view rng (buildFilter (K := K) qr cb) (u₀ :: us) key
        (fun _ => True) FilterState.modelInputs (fun _ b => b) (fun _ _ _ => trivial)
        (fun _ _ _ _ => trivial) (fun _ _ _ _ => trivial) (fun a b _ _ => rfl) (fun _ _ _ _ _ _ => rfl)
      rw [h, hseq] at hv
      simp only [Except.map, Except.ok.injEq] at hv
      rw [hv]; exact hs
  have hl : states.length = us.length + 1 := by
    have := congrArg List.length hin
    simpa using this
  refine ⟨hl, hin, ?_⟩
  cases parallel with
  | false =>
    obtain ⟨seq, hseq, hrun⟩ := filter_sequential_is_online_run rng (buildFilter (K := K) qr cb)
      (u₀ :: us) key (by simp)
    rw [h, Except.ok.injEq] at hseq
    subst hseq
    intro t ht
    obtain ⟨s, e, hs, he, hr, -⟩ := run_invariant qr cb u₀ us _ states hrun t ht
      fun u hu => hok u (List.mem_of_mem_take hu)
    exact ⟨s, e, hs, he, hr⟩
  | true =>
    obtain ⟨par, hpar, -, hinv⟩ := parallel_invariant qr rng cb u₀ us key hok False (fun h => h.elim)
    rw [h, Except.ok.injEq] at hpar
    subst hpar
    intro t ht
    obtain ⟨s, hs, e, he, hr, -⟩ := hinv t ht
    exact ⟨s, e, hs, he, hr⟩

/-- A smoother run in covariance form, in both modes. -/
theorem smoother_run_facts (qr : QR) (rng rng' : Prng K) (cb : Callbacks nx ny Inp) (u₀ : Inp)
    (us : List Inp) (hus : us ≠ []) (parallel parallel' : Bool) (key key' : Option K)
    (opts : SmootherOpts nx Inp) (hok : ∀ u ∈ us, ScanOk (stepOf cb u))
    (filterStates : List (FilterState nx Inp))
    (hf : (filter rng (buildFilter qr cb) (u₀ :: us) parallel key).result = .ok filterStates)
    (hP : ∀ (t : ℕ) s L u, filterStates[t]? = some s → s.cholCov = some L → us[t]? = some u →
      ((stepOf cb u).F * (L * Lᵀ) * ((stepOf cb u).F)ᵀ +
        (stepOf cb u).cholQ * ((stepOf cb u).cholQ)ᵀ).det ≠ 0)
    (mi : Option (List Inp)) (hmi : mi = none ∨ mi = some us ∨ mi = some (u₀ :: us)) :
    ∃ states LT, (smoother rng' FilterState.modelInputs (fun u => .ok (opts.dummy u))
        (buildSmoother qr cb.getDynamics opts) filterStates mi parallel' key').result = .ok states ∧
      states.length = us.length + 1 ∧ LT * LTᵀ = (kfAt cb u₀ us us.length).P ∧
      ∀ t ≤ us.length, ∃ s e bs, states[t]? = some s ∧ s.elem = some e ∧
        IsBackwardChain (kfAt cb u₀ us t) ((us.drop t).map (stepOf cb)) bs ∧
        sForm e = ⟨(backMarg (kfAt cb u₀ us us.length).m LT bs).1, 0,
          (backMarg (kfAt cb u₀ us us.length).m LT bs).2⟩ ∧
        ∀ s' e', states[t + 1]? = some s' → s'.elem = some e' → ∃ b bs', bs = b :: bs' ∧
          sForm e' = ⟨(backMarg (kfAt cb u₀ us us.length).m LT bs').1, 0,
            (backMarg (kfAt cb u₀ us us.length).m LT bs').2⟩ ∧
          s.gain = (if opts.storeGain then some (some b.E) else none) ∧
          s.cholCovGivenNext = (if opts.storeCholCovGivenNext then some (some b.D) else none) ∧
          us[t]? = some s.modelInputs := by
  obtain ⟨hlen, hins, hfs⟩ := filter_run_facts qr rng cb u₀ us parallel key hok filterStates hf
  have hl2 : us.length + 1 = filterStates.length := hlen.symm
  have hsm : smoother rng' FilterState.modelInputs (fun u => .ok (opts.dummy u))
      (buildSmoother (K := K) qr cb.getDynamics opts) filterStates mi parallel' key' =
      smoother rng' FilterState.modelInputs (fun u => .ok (opts.dummy u))
      (buildSmoother qr cb.getDynamics opts) filterStates (some us) parallel' key' := by
    have h := smoother_inputs_T_or_T_plus_one rng' FilterState.modelInputs (fun u => .ok (opts.dummy u))
      (buildSmoother (K := K) qr cb.getDynamics opts) filterStates u₀ us hl2 parallel' key'
    rcases hmi with rfl | rfl | rfl
    · exact h.2 hins
    · rfl
    · exact h.1
  rw [hsm]
  obtain ⟨u1, hu1⟩ : ∃ u, us[0]? = some u :=
    ⟨_, List.getElem?_eq_getElem (List.length_pos_iff.mpr hus)⟩
  obtain ⟨seq, hseq, run⟩ := smoother_sequential_is_backward_run rng' FilterState.modelInputs
    (fun u => .ok (opts.dummy u)) (buildSmoother (K := K) qr cb.getDynamics opts) filterStates us key' hl2
    u1 hu1 (opts.dummy u1) rfl
  obtain ⟨LT, hLT, hinv⟩ := smoother_invariant qr cb u₀ us opts filterStates (by
      intro t ht
      obtain ⟨s, e, hs, he, hr⟩ := hfs t ht
      exact ⟨s, e.b, e.U, hs, by simp [FilterState.mean, he], by simp [FilterState.cholCov, he], hr.b,
        hr.C⟩) hl2 _ _ _ seq run (by
      intro t u hu
      have ht : t < us.length := (List.getElem?_eq_some_iff.mp hu).1
      obtain ⟨s, e, hs, he, hr⟩ := hfs t ht.le
      have := hP t s e.U u hs (by simp [FilterState.cholCov, he]) hu
      rw [hr.C] at this
      exact this)
  have hslen : seq.length = us.length + 1 := by rw [run.length_eq, hlen]
  cases parallel' with
  | false =>
    refine ⟨seq, LT, hseq, hslen, hLT, fun t ht => ?_⟩
    obtain ⟨s, e, bs, hs, he, hch, hform, hnext⟩ := hinv (us.length - t) t (by omega)
    refine ⟨s, e, bs, hs, he, hch, hform, fun s' e' hs' he' => ?_⟩
    obtain ⟨b, bs', h1, -, h3, h4, h5, h6⟩ := hnext s' e' hs' he'
    exact ⟨b, bs', h1, h3, h4, h5, h6⟩
  | true =>
    have hv := kalman_smoother_parallel.smoother_view_eq qr rng' FilterState.modelInputs
      (fun u => .ok (opts.dummy u)) cb.getDynamics opts filterStates us hl2 key'
    rw [hseq] at hv
    obtain ⟨par, hpar⟩ : ∃ par, (smoother rng' FilterState.modelInputs (fun u => .ok (opts.dummy u))
        (buildSmoother qr cb.getDynamics opts) filterStates (some us) true key').result = .ok par := by
      cases hr : (smoother rng' FilterState.modelInputs (fun u => .ok (opts.dummy u))
        (buildSmoother qr cb.getDynamics opts) filterStates (some us) true key').result with
      | error e => rw [hr] at hv; cases hv
      | ok par => exact ⟨par, rfl⟩
    rw [hpar] at hv
    simp only [Except.map, Except.ok.injEq] at hv
    have hget : ∀ (t : ℕ) s, seq[t]? = some s → ∃ s', par[t]? = some s' ∧ sView s' = sView s := by
      intro t s hs
      have h1 : (par.map sView)[t]? = some (sView s) := by rw [hv, List.getElem?_map, hs]; rfl
      rw [List.getElem?_map] at h1
      cases hp : par[t]? with
      | none => rw [hp] at h1; cases h1
      | some s' =>
        rw [hp, Option.map_some, Option.some.injEq] at h1
        exact ⟨s', rfl, h1⟩
    have helem : ∀ (s s' : SmootherState nx Inp) e, sView s' = sView s → s.elem = some e →
        ∃ e', s'.elem = some e' ∧ sForm e' = sForm e := by
      intro s s' e hv he
      have h1 : s'.elem.map sForm = s.elem.map sForm := congrArg SView.elem hv
      rw [he] at h1
      cases hs' : s'.elem with
      | none => rw [hs'] at h1; cases h1
      | some e' =>
        rw [hs'] at h1
        exact ⟨e', rfl, Option.some.inj h1⟩
    refine ⟨par, LT, hpar, ?_, hLT, fun t ht => ?_⟩
    · have := congrArg List.length hv
      simp only [List.length_map] at this
      omega
    · obtain ⟨s, e, bs, hs, he, hch, hform, hnext⟩ := hinv (us.length - t) t (by omega)
      obtain ⟨q, hq, hqv⟩ := hget t s hs
      obtain ⟨e₁, he₁, hf₁⟩ := helem s q e hqv he
      refine ⟨q, e₁, bs, hq, he₁, hch, by rw [hf₁]; exact hform, fun q' e' hq' he' => ?_⟩
      have htl : t + 1 < seq.length := by
        have h1 := (List.getElem?_eq_some_iff.mp hq').1
        have := congrArg List.length hv
        simp only [List.length_map] at this
        omega
      obtain ⟨s', e'', -, hs', he'', -⟩ := hinv (us.length - (t + 1)) (t + 1) (by omega)
      obtain ⟨q'', hq'', hqv''⟩ := hget (t + 1) s' hs'
      rw [hq', Option.some.injEq] at hq''
      subst hq''
      obtain ⟨e₂, he₂, hf₂⟩ := helem s' q' e'' hqv'' he''
      rw [he', Option.some.injEq] at he₂
      subst he₂
      obtain ⟨b, bs', h1, -, h3, h4, h5, h6⟩ := hnext s' e'' hs' he''
      refine ⟨b, bs', h1, by rw [hf₂]; exact h3, ?_, ?_, ?_⟩
      · rw [show q.gain = s.gain from congrArg SView.gain hqv]; exact h4
      · rw [show q.cholCovGivenNext = s.cholCovGivenNext from congrArg SView.cholCovGivenNext hqv]
        exact h5
      · rw [show q.modelInputs = s.modelInputs from congrArg SView.modelInputs hqv]; exact h6

/-- Expectations of functions of the path from time `t` on. -/
theorem jointExp_from (cb : Callbacks nx ny Inp) (u₀ : Inp) (us : List Inp)
    (hR : ∀ u ∈ us, (stepOf cb u).R.det ≠ 0) (t : ℕ) (ht : t ≤ us.length) (bs : List (BStep nx))
    (hch : IsBackwardChain (kfAt cb u₀ us t) ((us.drop t).map (stepOf cb)) bs)
    (LT : Matrix (Fin nx) (Fin nx) ℝ) (hLT : LT * LTᵀ = (kfAt cb u₀ us us.length).P)
    {f : (ℕ → Fin nx → ℝ) → ℝ≥0∞} (hf : Measurable f) :
    jointExp (cb.getInit u₀).1 (cb.getInit u₀).2 (us.map (stepOf cb)) (fun p => f fun n => p (n + t)) =
      ENNReal.ofReal (Real.exp (kfAt cb u₀ us us.length).l) *
        backExp (kfAt cb u₀ us us.length).m LT bs f := by
  have hg : IsGram (kfAt cb u₀ us t).P :=
    kf_gram _ (isGram_of _) (steps_take cb us t _ fun u hu => ScanOk.of_R _ (hR u hu))
  obtain ⟨V, hV⟩ := hg.exists_sqrt
  have hkt : ((us.map (stepOf cb)).take t).foldl kfStep
      ⟨(cb.getInit u₀).1, (cb.getInit u₀).2 * ((cb.getInit u₀).2)ᵀ, 0⟩ = kfAt cb u₀ us t := by
    rw [kfAt, List.map_take]
  have hkT : ((us.drop t).map (stepOf cb)).foldl kfStep (kfAt cb u₀ us t) = kfAt cb u₀ us us.length := by
    rw [kfAt, kfAt, ← List.foldl_append, ← List.map_append, List.take_append_drop, List.take_length]
  have h1 := joint_split (us.map (stepOf cb)) t (by simpa using ht)
    (by rw [← List.map_take]; exact steps_take cb us t _ hR)
    ⟨(cb.getInit u₀).1, (cb.getInit u₀).2 * ((cb.getInit u₀).2)ᵀ, 0⟩ (cb.getInit u₀).2 rfl V
    (by rw [hkt]; exact hV) hf
  rw [hkt, ← List.map_drop] at h1
  have h2 := joint_back ((us.drop t).map (stepOf cb)) (by
      intro s hs
      obtain ⟨u, hu, rfl⟩ := List.mem_map.mp hs
      exact hR u (List.mem_of_mem_drop hu)) (kfAt cb u₀ us t) V hV bs hch LT (by rw [hkT]; exact hLT) hf
  rw [hkT] at h2
  rw [jointExp, h1, h2, ← mul_assoc, ← ENNReal.ofReal_mul (Real.exp_nonneg _), ← Real.exp_add]
  congr 3
  simp

/-- **C30, C31.** The Kalman smoother is exact. Filtering (in either mode) and then smoothing (in either
mode, with any of the accepted forms of model inputs) a linear-Gaussian model with nonsingular observed
noise and nonsingular predictive covariances `F P_t Fᵀ + Q` returns for every `t`: finite `m_t`, `L_t`
with `N(m_t, L_t L_tᵀ) = p(x_t | y_1..y_T)`; and for `t < T` with both options set a gain `G` and a factor
`V` such that the law of `(x_{t+1}, x_t)` given all data has the factor `[[L_{t+1}, 0], [G L_{t+1}, V]]`,
as the README states. Here `l = log p(y_1..y_T)`. -/
theorem kalman_smoother_exact (qr : QR) (rng rng' : Prng K) (cb : Callbacks nx ny Inp) (u₀ : Inp)
    (us : List Inp) (hus : us ≠ []) (parallel parallel' : Bool) (key key' : Option K)
    (opts : SmootherOpts nx Inp) (hR : ∀ u ∈ us, (stepOf cb u).R.det ≠ 0)
    (filterStates : List (FilterState nx Inp))
    (hf : (filter rng (buildFilter qr cb) (u₀ :: us) parallel key).result = .ok filterStates)
    (hP : ∀ (t : ℕ) s L u, filterStates[t]? = some s → s.cholCov = some L → us[t]? = some u →
      ((stepOf cb u).F * (L * Lᵀ) * ((stepOf cb u).F)ᵀ +
        (stepOf cb u).cholQ * ((stepOf cb u).cholQ)ᵀ).det ≠ 0)
    (mi : Option (List Inp)) (hmi : mi = none ∨ mi = some us ∨ mi = some (u₀ :: us)) :
    ∃ states l, (smoother rng' FilterState.modelInputs (fun u => .ok (opts.dummy u))
        (buildSmoother qr cb.getDynamics opts) filterStates mi parallel' key').result = .ok states ∧
      states.length = us.length + 1 ∧
      (∀ t ≤ us.length, ∃ s m L, states[t]? = some s ∧ s.mean = some m ∧ s.cholCov = some L ∧
        ∀ φ : (Fin nx → ℝ) → ℝ≥0∞, Measurable φ →
          jointExp (cb.getInit u₀).1 (cb.getInit u₀).2 (us.map (stepOf cb)) (fun p => φ (p t)) =
            ENNReal.ofReal (Real.exp l) * ∫⁻ x, φ x ∂gauss m L) ∧
      ∀ (t : ℕ) s s' m m' L L', states[t]? = some s → states[t + 1]? = some s' → s.mean = some m →
        s'.mean = some m' → s.cholCov = some L → s'.cholCov = some L' → ∃ G V,
        s.gain = (if opts.storeGain then some (some G) else none) ∧
        s.cholCovGivenNext = (if opts.storeCholCovGivenNext then some (some V) else none) ∧
        us[t]? = some s.modelInputs ∧
        ∀ φ : (Fin nx ⊕ Fin nx → ℝ) → ℝ≥0∞, Measurable φ →
          jointExp (cb.getInit u₀).1 (cb.getInit u₀).2 (us.map (stepOf cb))
              (fun p => φ (Sum.elim (p (t + 1)) (p t))) =
            ENNReal.ofReal (Real.exp l) *
              ∫⁻ z, φ z ∂gauss (Sum.elim m' m) (Matrix.fromBlocks L' 0 (G * L') V) := by
  obtain ⟨states, LT, hst, hlen, hLT, hall⟩ := smoother_run_facts qr rng rng' cb u₀ us hus parallel
    parallel' key key' opts (fun u hu => ScanOk.of_R _ (hR u hu)) filterStates hf hP mi hmi
  refine ⟨states, (kfAt cb u₀ us us.length).l, hst, hlen, ?_, ?_⟩
  · intro t ht
    obtain ⟨s, e, bs, hs, he, hch, hform, -⟩ := hall t ht
    simp only [sForm, SElem.mk.injEq] at hform
    refine ⟨s, e.g, e.D, hs, by simp [SmootherState.mean, he], by simp [SmootherState.cholCov, he], ?_⟩
    intro φ hφ
    have h := jointExp_from cb u₀ us hR t ht bs hch LT hLT (f := fun p => φ (p 0))
      (hφ.comp (measurable_pi_apply 0))
    simp only [Nat.zero_add] at h
    rw [h, backExp_head _ LT bs e.D hform.2.2 hφ, hform.1]
  · intro t s s' m m' L L' hs hs' hm hm' hL hL'
    have ht1 : t + 1 < states.length := (List.getElem?_eq_some_iff.mp hs').1
    obtain ⟨s₁, e, bs, hs₁, he, hch, hform, hnext⟩ := hall t (by omega)
    rw [hs, Option.some.injEq] at hs₁
    subst hs₁
    obtain ⟨s₂, e', -, hs₂, he', -⟩ := hall (t + 1) (by omega)
    rw [hs', Option.some.injEq] at hs₂
    subst hs₂
    obtain ⟨b, bs', rfl, hform', hg, hc, hu⟩ := hnext s' e' hs' he'
    simp only [sForm, SElem.mk.injEq] at hform hform'
    simp only [SmootherState.mean, he, he', Option.map_some, Option.some.injEq] at hm hm'
    simp only [SmootherState.cholCov, he, he', Option.map_some, Option.some.injEq] at hL hL'
    subst hm; subst hm'; subst hL; subst hL'
    refine ⟨b.E, b.D, hg, hc, hu, ?_⟩
    intro φ hφ
    have hφ2 : Measurable fun q : (Fin nx → ℝ) × (Fin nx → ℝ) => φ (Sum.elim q.2 q.1) :=
      hφ.comp (measurable_sumElim.comp measurable_swap)
    have hφ3 : Measurable fun p : ℕ → Fin nx → ℝ => (p 1, p 0) :=
      (measurable_pi_apply 1).prodMk (measurable_pi_apply 0)
    have hφ4 : Measurable fun p : ℕ → Fin nx → ℝ => φ (Sum.elim (p 1) (p 0)) :=
      hφ.comp (measurable_sumElim.comp hφ3)
    have h := jointExp_from cb u₀ us hR t (by omega) (b :: bs') hch LT hLT hφ4
    have e1 : ∀ p : ℕ → Fin nx → ℝ, φ (Sum.elim (p (1 + t)) (p (0 + t))) =
        φ (Sum.elim (p (t + 1)) (p t)) := fun p => by rw [Nat.add_comm 1 t, Nat.zero_add]
    simp only [e1] at h
    rw [h, backExp_pair _ LT b bs' e'.D hform'.2.2 hφ2]
    congr 1
    have hmean : ∀ x', b.E *ᵥ x' + b.g = e.g + b.E *ᵥ (x' - e'.g) := by
      intro x'
      rw [hform.1, hform'.1]
      simp only [backMarg, Matrix.mulVec_sub]
      abel
    simp only [hmean]
    rw [← hform'.1]
    exact pair_law e'.g e.g e'.D b.E b.D hφ
where
  /-- Drawing `x' ~ N(m', L' L'ᵀ)` and then `x ~ N(m + G (x' - m'), V Vᵀ)`. -/
  pair_law (m' m : Fin nx → ℝ) (L' G V : Matrix (Fin nx) (Fin nx) ℝ)
      {φ : (Fin nx ⊕ Fin nx → ℝ) → ℝ≥0∞} (hφ : Measurable φ) :
      ∫⁻ x', ∫⁻ x, φ (Sum.elim x' x) ∂gauss (m + G *ᵥ (x' - m')) V ∂gauss m' L' =
        ∫⁻ z, φ z ∂gauss (Sum.elim m' m) (Matrix.fromBlocks L' 0 (G * L') V) := by
    have hm : Measurable fun x' : Fin nx → ℝ => m + G *ᵥ (x' - m') :=
      measurable_const.add ((measurable_mulVec G).comp (measurable_id.sub measurable_const))
    have g1 : Measurable fun x' : Fin nx → ℝ => ∫⁻ x, φ (Sum.elim x' x) ∂gauss (m + G *ᵥ (x' - m')) V :=
      measurable_lintegral_kernel _ hm V (f := fun q => φ (Sum.elim q.1 q.2)) (hφ.comp measurable_sumElim)
    rw [lintegral_gauss _ _ g1, lintegral_gauss _ _ hφ,
      lintegral_stdNormal_sum (f := fun ε => φ (Sum.elim m' m +
        Matrix.fromBlocks L' 0 (G * L') V *ᵥ ε)) (hφ.comp (measurable_affine _ _))]
    refine lintegral_congr fun ε => ?_
    have h2 : Measurable fun x : Fin nx → ℝ => φ (Sum.elim (m' + L' *ᵥ ε) x) :=
      hφ.comp (measurable_sumElim.comp (measurable_const.prodMk measurable_id))
    rw [lintegral_gauss _ _ h2]
    refine lintegral_congr fun η => ?_
    rw [fromBlocks_affine]
    congr 2
    · simp
    · rw [add_sub_cancel_left, Matrix.mulVec_mulVec, add_assoc]

/-- Non-vacuity for C30 and C31: full-rank process noise gives nonsingular predictive covariances, for
every filter run; `scalarModel 1 1` is a model with full-rank noises. -/
example (qr : QR) (rng : Prng K) (cb : Callbacks nx ny Inp) (u₀ : Inp) (us : List Inp) (parallel : Bool)
    (key : Option K) (hQ : ∀ u ∈ us, ((stepOf cb u).cholQ * ((stepOf cb u).cholQ)ᵀ).det ≠ 0)
    (filterStates : List (FilterState nx Inp))
    (_ : (filter rng (buildFilter qr cb) (u₀ :: us) parallel key).result = .ok filterStates) :
    ∀ (t : ℕ) s L u, filterStates[t]? = some s → s.cholCov = some L → us[t]? = some u →
      ((stepOf cb u).F * (L * Lᵀ) * ((stepOf cb u).F)ᵀ +
        (stepOf cb u).cholQ * ((stepOf cb u).cholQ)ᵀ).det ≠ 0 := by
  intro t s L u _ _ hu
  rw [add_comm]
  exact (isGram_of _).det_add_ne_zero (hQ u (List.mem_of_getElem? hu)) ((isGram_of L).conj _)

example (u : Unit) : (stepOf (scalarModel 1 1) u).R.det ≠ 0 ∧
    ((stepOf (scalarModel 1 1) u).cholQ * ((stepOf (scalarModel 1 1) u).cholQ)ᵀ).det ≠ 0 :=
  ⟨scalarModel_R 1 1 u, by simp [stepOf, scalarModel, Matrix.mul_apply]⟩

/-- **C30** (why the predictive covariance must be nonsingular). With a known, static state
(`P0 = Q = 0`) the smoothing law is a point mass, but both modes return NaN at time zero. -/
theorem kalman_smoother_nan_known_static_state (qr : QR) (rng : Prng K) (key : Option K)
    (opts : SmootherOpts 1 Unit) (parallel : Bool) (filterStates : List (FilterState 1 Unit))
    (hf : (filter rng (buildFilter qr (scalarModel 0 0)) [(), ()] false key).result = .ok filterStates) :
    ∃ s₀ s₁, (smoother rng FilterState.modelInputs (fun u => .ok (opts.dummy u))
        (buildSmoother qr (scalarModel 0 0).getDynamics opts) filterStates (some [()]) parallel
        key).result = .ok [s₀, s₁] ∧ s₀.mean = none ∧ s₀.cholCov = none := by
  have hseq : (filter rng (buildFilter qr (scalarModel 0 0)) [(), ()] false key).result =
      .ok [initPrepare (scalarModel 0 0) (), filterCombine qr (initPrepare (scalarModel 0 0) ())
        (filterPrepare qr (scalarModel 0 0) ())] := by
    rw [filter_sequential_eq, filterElems_eq]; rfl
  rw [hseq, Except.ok.injEq] at hf
  subst hf
  have hprep : (smootherPrepare qr (scalarModel 0 0).getDynamics opts
      (initPrepare (scalarModel 0 0) ()) ()).elem = none :=
    smootherParams_none qr _ _ _ _ _ (by simp [innovCov, Matrix.mul_apply])
  rw [smoother_core_eq _ _ _ _ _ _ rfl]
  refine ⟨smootherCombine qr (smootherPrepare qr (scalarModel 0 0).getDynamics opts
      (initPrepare (scalarModel 0 0) ()) ()) (convert opts (filterCombine qr
        (initPrepare (scalarModel 0 0) ()) (filterPrepare qr (scalarModel 0 0) ())) (opts.dummy ())),
    convert opts (filterCombine qr (initPrepare (scalarModel 0 0) ())
      (filterPrepare qr (scalarModel 0 0) ())) (opts.dummy ()), ?_, ?_, ?_⟩
  · have he : smootherElems rng (buildSmoother qr (scalarModel 0 0).getDynamics opts)
        [initPrepare (scalarModel 0 0) (), filterCombine qr (initPrepare (scalarModel 0 0) ())
          (filterPrepare qr (scalarModel 0 0) ())] [()] key =
        [smootherPrepare qr (scalarModel 0 0).getDynamics opts (initPrepare (scalarModel 0 0) ()) ()] := by
      refine List.ext_getElem? fun t => ?_
      cases t with
      | zero => exact smootherElems_get rng _ _ _ key rfl 0 _ _ rfl rfl
      | succ t =>
        rw [List.getElem?_eq_none (by rw [smootherElems_length _ _ _ _ _ rfl]; simp)]
        rfl
    cases parallel with
    | false =>
      simp only [smootherCore, List.getLast?_cons_cons, List.getLast?_singleton, List.getElem?_cons_zero, he]
      rfl
    | true =>
      simp only [smootherCore, if_true, associativeScanRev]
      simp only [List.getLast?_cons_cons, List.getLast?_singleton, List.getElem?_cons_zero, he,
        List.cons_append, List.nil_append, List.reverse_cons, List.reverse_nil]
      rw [associativeScan_cons_cons]
      simp [pairUp, associativeScan_singleton, interleave, everyOther]
      exact ⟨rfl, rfl⟩
  · simp only [SmootherState.mean, smootherCombine, hprep]
    cases (convert opts (filterCombine qr (initPrepare (scalarModel 0 0) ())
      (filterPrepare qr (scalarModel 0 0) ())) (opts.dummy ())).elem <;> rfl
  · simp only [SmootherState.cholCov, smootherCombine, hprep]
    cases (convert opts (filterCombine qr (initPrepare (scalarModel 0 0) ())
      (filterPrepare qr (scalarModel 0 0) ())) (opts.dummy ())).elem <;> rfl

end

end Cuthbert.Kalman
