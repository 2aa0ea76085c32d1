import Verif.Lemmas.SMCConsistency
import Verif.Props.ParticleFilter

/-!
# Properties: the particle filter converges as the number of particles grows (C75)
-/

namespace Cuthbert.SMC
open MeasureTheory Set Resampling Spec Filter
open scoped ENNReal Topology

noncomputable section

variable {K X Inp : Type} {N : ℕ}

/-! ## C75 -/

/-- A run of the particle filter never raises, and at every time its log-weights can be normalised unless the estimate
of the evidence is zero, and the mean squared errors of its estimate of the
evidence and of its weighted average of any bounded function of the path are at most a constant times `r`. `B` bounds
the potentials. The target of the average is the expectation under the normalised Feynman-Kac measure. -/
def AccurateRun [MeasurableSpace K] [MeasurableSpace X] (rng : Rng K) (P : Measure K) (mdl : FKModel K X Inp)
    (R : Resampler K N X) (dummy : X) (u0 : Inp) (us : List Inp) (B r : ℝ) : Prop :=
  ∃ S : K → ℕ → PFState K X Inp N,
    (∀ k, filter rng.toPrng (particleFilter rng.toPrng mdl dummy N R) (u0 :: us) false (some k) =
      ⟨false, .ok ((List.range (us.length + 1)).map fun t => .ok (S k t))⟩) ∧
    ∀ t ≤ us.length, ∀ z : ℝ, z = (fkExp (mdl.init P u0) ((us.take t).map (mdl.step P)) fun _ => 1).toReal →
      (∀ k, (S k t).logZ.IsLog ∧ (IsLogits (S k t).logWeights ∨ (S k t).logZ = Fl.ninf)) ∧
      Measurable (fun k => (S k t).logZ.lik) ∧
      ∫⁻ k, ENNReal.ofReal (((S k t).logZ.lik - z) ^ 2) ∂P ≤ ENNReal.ofReal (2 * (t + 12) * r * (B ^ t) ^ 2) ∧
      ∀ (f : (ℕ → X) → ℝ) (c : ℝ), Measurable f → (∀ p, |f p| ≤ c) → 0 < z →
        Measurable (fun k => average (S k) t f) ∧
        ∫⁻ k, ENNReal.ofReal ((average (S k) t f -
            fkMean (mdl.init P u0) ((us.take t).map (mdl.step P)) f) ^ 2) ∂P ≤
          ENNReal.ofReal (18 * (t + 12) * r * (B ^ t * c / z) ^ 2)

section law

variable [MeasurableSpace K] [MeasurableSpace X] {P : Measure K} {rng : Rng K} {mdl : FKModel K X Inp}
  {I : K → (Fin N → Fl) → Fin N → Fin N} {L : K → (Fin N → Fl) → Fin N → Fl} {u0 : Inp} {us : List Inp}

theorem accurateRun_of_bounds [NeZero N] {R : Resampler K N X} (hR : Uses R I L) {B r : ℝ} (hB : 0 ≤ B)
    (hr : 0 ≤ r) {κ δ : ℝ≥0∞} (hb : RunBounds rng P mdl I L u0 us (ENNReal.ofReal B) κ δ) (hκ : κ ≤ ENNReal.ofReal r)
    (hδ : δ ≤ 8 * ENNReal.ofReal r) (dummy : X) : AccurateRun rng P mdl R dummy u0 us B r := by
  have hκt : κ ≠ ⊤ := ne_top_of_le_ne_top ENNReal.ofReal_ne_top hκ
  have hδt : δ ≠ ⊤ := ne_top_of_le_ne_top (ENNReal.mul_ne_top (by norm_num) ENNReal.ofReal_ne_top) hδ
  have hsum : ∀ t : ℕ, 3 * δ + 2 * κ * t ≤ ENNReal.ofReal (2 * (t + 12) * r) := by
    intro t
    calc 3 * δ + 2 * κ * t ≤ 3 * (8 * ENNReal.ofReal r) + 2 * ENNReal.ofReal r * t := by gcongr
      _ = (24 + 2 * (t : ℝ≥0∞)) * ENNReal.ofReal r := by ring
      _ = ENNReal.ofReal (24 + 2 * t) * ENNReal.ofReal r := by
          rw [ENNReal.ofReal_add (by norm_num) (by positivity), ENNReal.ofReal_mul (by norm_num), ENNReal.ofReal_natCast]
          simp
      _ = _ := by
          rw [← ENNReal.ofReal_mul (by positivity)]
          congr 1
          ring
  refine ⟨fun k t => pfRun rng.toPrng mdl I L u0 us k t, fun k => filter_pf_eq hR dummy u0 us k, ?_⟩
  intro t ht z hz
  have hg := fun k => pfRun_good (rng := rng.toPrng) (mdl := mdl) (I := I) hb.unbiased.isLogits u0 us k
    (fun u h => (hb.regular u h).isLog) hb.dead t ht
  refine ⟨fun k => ⟨(hg k).logZ, (hg k).alive.imp_right fun h => h.2⟩, ?_, ?_, fun f c hf hfc hz0 => ⟨?_, ?_⟩⟩
  · have h1 := (measurable_pathEst hb.ideal hb.unbiased hb.init us hb.regular t ht
      (f := fun _ => 1) measurable_const).ennreal_toReal
    simp only [hb.pathEst_one t ht, ENNReal.toReal_ofReal (Fl.lik_nonneg _)] at h1
    exact h1
  · rw [hz]
    refine (hb.mse_evidence ENNReal.ofReal_ne_top hδt hκt t ht).trans ?_
    rw [ENNReal.ofReal_mul (by positivity), ENNReal.ofReal_pow (by positivity), ENNReal.ofReal_pow hB]
    exact mul_le_mul_left (hsum t) _
  · exact measurable_average hb.ideal hb.unbiased hb.init us hb.regular t ht hf
  · have hc : 0 ≤ c := (abs_nonneg _).trans (hfc fun _ => dummy)
    refine (hb.mse_average ENNReal.ofReal_ne_top hδt hκt t ht hf hc hfc hz hz0).trans ?_
    rw [show 18 * ((t : ℝ) + 12) * r * (B ^ t * c / z) ^ 2 = 9 * (2 * (t + 12) * r * (B ^ t * (c / z)) ^ 2) by ring,
      ENNReal.ofReal_mul (by norm_num), ENNReal.ofReal_mul (by positivity), ENNReal.ofReal_pow (by positivity),
      ENNReal.ofReal_mul (pow_nonneg hB t), ENNReal.ofReal_pow hB]
    simp only [ENNReal.ofReal_ofNat]
    gcongr
    exact hsum t

variable [NeZero N]

theorem ofReal_inv_natCast : ENNReal.ofReal (1 / (N : ℝ)) = (N : ℝ≥0∞)⁻¹ := by
  rw [one_div, ENNReal.ofReal_inv_of_pos (by exact_mod_cast NeZero.pos N), ENNReal.ofReal_natCast]

/-- C75 with multinomial resampling, for both kinds of generator. -/
theorem multinomial_filter_accurate (h : IdealRng rng P) (hI : IndepSplit rng.toPrng P ∨ PrefixSplit rng.toPrng)
    (pf : Platform) (h0 : Measurable fun k => mdl.initSample k u0) (hu : ∀ u ∈ us, mdl.Regular u) {B : ℝ}
    (hB : 0 ≤ B) (hb : ∀ u ∈ us, ∀ x x', (mdl.logPotential x x' u).lik ≤ B) (dummy : X) :
    AccurateRun (N := N) rng P mdl (multinomial rng pf) dummy u0 us B (1 / N) := by
  have := h.prob
  have hf : FirstStep rng.toPrng P (fun k (l : Fin N → Fl) => multinomialIdx rng pf l N k) zeroLogits
      (8 * (N : ℝ≥0∞)⁻¹) := by
    rcases hI with hI | hI
    · refine (firstStep_indep (unbiasedWeights_multinomial h pf) (concentrates_multinomial h pf) hI).mono ?_
      rw [show (N : ℝ≥0∞)⁻¹ + 2 * (N : ℝ≥0∞)⁻¹ = 3 * (N : ℝ≥0∞)⁻¹ by ring]
      gcongr
      norm_num
    · exact firstStep_multinomial h hI pf
  refine accurateRun_of_bounds (uses_multinomial rng pf) hB (by positivity) (κ := (N : ℝ≥0∞)⁻¹)
    (δ := 8 * (N : ℝ≥0∞)⁻¹) ⟨h, unbiasedWeights_multinomial h pf, concentrates_multinomial h pf, hf, ?_, h0, hu,
      fun u hu x x' => ENNReal.ofReal_le_ofReal (hb u hu x x'), .inl revivesDead_zero⟩ ?_ ?_ dummy
  · exact le_mul_of_one_le_left' (by norm_num)
  · rw [ofReal_inv_natCast]
  · rw [ofReal_inv_natCast]

/-- C75 with killing resampling, for both kinds of generator. -/
theorem killing_filter_accurate (h : IdealRng rng P) (hI : IndepSplit rng.toPrng P ∨ PrefixSplit rng.toPrng)
    (pf : Platform) (h0 : Measurable fun k => mdl.initSample k u0) (hu : ∀ u ∈ us, mdl.Regular u) {B : ℝ}
    (hB : 0 ≤ B) (hb : ∀ u ∈ us, ∀ x x', (mdl.logPotential x x' u).lik ≤ B) (dummy : X) :
    AccurateRun (N := N) rng P mdl (killing rng pf) dummy u0 us B (1 / N) := by
  have := h.prob
  have hf : FirstStep rng.toPrng P (fun k (l : Fin N → Fl) => killingIdx rng pf l k) zeroLogits
      (8 * (N : ℝ≥0∞)⁻¹) := by
    rcases hI with hI | hI
    · refine (firstStep_indep (unbiasedWeights_killing h pf) (concentrates_killing h pf) hI).mono ?_
      rw [show (N : ℝ≥0∞)⁻¹ + 2 * (N : ℝ≥0∞)⁻¹ = 3 * (N : ℝ≥0∞)⁻¹ by ring]
      gcongr
      norm_num
    · refine (firstStep_keeps h hI (keepsEqual_killing rng P pf)).mono ?_
      gcongr
      norm_num
  refine accurateRun_of_bounds (uses_killing rng pf) hB (by positivity) (κ := (N : ℝ≥0∞)⁻¹)
    (δ := 8 * (N : ℝ≥0∞)⁻¹) ⟨h, unbiasedWeights_killing h pf, concentrates_killing h pf, hf, ?_, h0, hu,
      fun u hu x x' => ENNReal.ofReal_le_ofReal (hb u hu x x'), .inl revivesDead_zero⟩ ?_ ?_ dummy
  · exact le_mul_of_one_le_left' (by norm_num)
  · rw [ofReal_inv_natCast]
  · rw [ofReal_inv_natCast]

/-- C75 with adaptive resampling around multinomial or killing resampling, for both kinds of generator and finite log
potentials: the errors are inversely proportional to the threshold on the effective sample size. -/
theorem adaptive_filter_accurate (h : IdealRng rng P) (hI : IndepSplit rng.toPrng P ∨ PrefixSplit rng.toPrng)
    {R : Resampler K N X} {pf : Platform} (hR : R = multinomial rng pf ∨ R = killing rng pf) {θ : ℝ} (hθ : 0 < θ)
    (hθ1 : θ ≤ 1) (h0 : Measurable fun k => mdl.initSample k u0) (hu : ∀ u ∈ us, mdl.Regular u)
    (hd : ∀ u ∈ us, ∀ x x', (mdl.logPotential x x' u).IsFin) {B : ℝ}
    (hB : 0 ≤ B) (hb : ∀ u ∈ us, ∀ x x', (mdl.logPotential x x' u).lik ≤ B) (dummy : X) :
    AccurateRun rng P mdl (adaptive R θ) dummy u0 us B (1 / (θ * N)) := by
  have := h.prob
  have hN : (0 : ℝ) < N := by exact_mod_cast NeZero.pos N
  have hle : (N : ℝ≥0∞)⁻¹ ≤ ENNReal.ofReal (1 / (θ * N)) := by
    rw [← ofReal_inv_natCast]
    refine ENNReal.ofReal_le_ofReal (one_div_le_one_div_of_le (by positivity) ?_)
    nlinarith
  have hmax : max (N : ℝ≥0∞)⁻¹ (ENNReal.ofReal (θ * N)⁻¹) = ENNReal.ofReal (1 / (θ * N)) := by
    rw [← one_div (θ * (N : ℝ))]
    exact max_eq_right hle
  have key : ∀ I, Uses R I zeroLogits → UnbiasedWeights P I zeroLogits →
      Concentrates P I zeroLogits (N : ℝ≥0∞)⁻¹ →
      AccurateRun rng P mdl (adaptive R θ) dummy u0 us B (1 / (θ * N)) := by
    intro I h1 h2 h3
    have hc := h3.adaptive hθ
    rw [hmax] at hc
    have hf : FirstStep rng.toPrng P (adaptIdx I θ) (adaptLogits zeroLogits θ)
        (8 * ENNReal.ofReal (1 / (θ * N))) := by
      rcases hI with hI | hI
      · refine (firstStep_indep (h2.adaptive θ) hc hI).mono ?_
        calc _ ≤ ENNReal.ofReal (1 / (θ * N)) + 2 * ENNReal.ofReal (1 / (θ * N)) := by gcongr
          _ = 3 * ENNReal.ofReal (1 / (θ * N)) := by ring
          _ ≤ _ := by gcongr; norm_num
      · refine (firstStep_keeps h hI (keepsEqual_adaptive P I zeroLogits hθ1)).mono ?_
        gcongr
        norm_num
    refine accurateRun_of_bounds (uses_adaptive h1 θ) hB (by positivity) (κ := ENNReal.ofReal (1 / (θ * N)))
      (δ := 8 * ENNReal.ofReal (1 / (θ * N))) ⟨h, h2.adaptive θ, hc, hf, ?_, h0, hu,
        fun u hu x x' => ENNReal.ofReal_le_ofReal (hb u hu x x'), .inr hd⟩ le_rfl le_rfl dummy
    exact hle.trans (le_mul_of_one_le_left' (by norm_num))
  rcases hR with rfl | rfl
  · exact key _ (uses_multinomial rng pf) (unbiasedWeights_multinomial h pf) (concentrates_multinomial h pf)
  · exact key _ (uses_killing rng pf) (unbiasedWeights_killing h pf) (concentrates_killing h pf)

end law

/-! ### Convergence -/

/-- As the number of particles grows, the estimates of runs with the resampling functions `R` converge in probability:
the weighted averages of bounded functions of the path to their expectations under the normalised Feynman-Kac measure,
and `log_normalizing_constant` to the logarithm of the evidence. -/
def ConsistentRuns [MeasurableSpace K] [MeasurableSpace X] (rng : Rng K) (P : Measure K) (mdl : FKModel K X Inp)
    (R : ∀ N : ℕ, Resampler K (N + 1) X) (dummy : X) (u0 : Inp) (us : List Inp) : Prop :=
  ∃ S : ∀ N : ℕ, K → ℕ → PFState K X Inp (N + 1),
    (∀ N k, filter rng.toPrng (particleFilter rng.toPrng mdl dummy (N + 1) (R N)) (u0 :: us) false (some k) =
      ⟨false, .ok ((List.range (us.length + 1)).map fun t => .ok (S N k t))⟩) ∧
    ∀ t ≤ us.length, ∀ z : ℝ, z = (fkExp (mdl.init P u0) ((us.take t).map (mdl.step P)) fun _ => 1).toReal →
      0 < z → ∀ ε : ℝ, 0 < ε →
      Tendsto (fun N => P {k | ¬ ∃ l : ℝ, (S N k t).logZ = Fl.fin l ∧ |l - Real.log z| < ε}) atTop (𝓝 0) ∧
      ∀ (f : (ℕ → X) → ℝ) (c : ℝ), Measurable f → (∀ p, |f p| ≤ c) →
        Tendsto (fun N => P {k | ε ≤ |average (S N k) t f -
          fkMean (mdl.init P u0) ((us.take t).map (mdl.step P)) f|}) atTop (𝓝 0)

section convergence

variable [MeasurableSpace K] [MeasurableSpace X] {P : Measure K} {rng : Rng K} {mdl : FKModel K X Inp}
  {u0 : Inp} {us : List Inp}

/-- Chebyshev's inequality. -/
theorem tendsto_prob {Ω : Type*} [MeasurableSpace Ω] {μ : Measure Ω} {Y : ℕ → Ω → ℝ} {y C : ℝ} {r : ℕ → ℝ}
    (hY : ∀ N, Measurable (Y N)) (h : ∀ N, ∫⁻ w, ENNReal.ofReal ((Y N w - y) ^ 2) ∂μ ≤ ENNReal.ofReal (C * r N))
    (hr : Tendsto r atTop (𝓝 0)) {ε : ℝ} (hε : 0 < ε) :
    Tendsto (fun N => μ {w | ε ≤ |Y N w - y|}) atTop (𝓝 0) := by
  have h1 : ∀ N, μ {w | ε ≤ |Y N w - y|} ≤ ENNReal.ofReal (C * r N) / ENNReal.ofReal (ε ^ 2) := by
    intro N
    have h2 : {w | ε ≤ |Y N w - y|} = {w | ENNReal.ofReal (ε ^ 2) ≤ ENNReal.ofReal ((Y N w - y) ^ 2)} := by
      ext w
      simp only [mem_ofPred_eq]
      rw [ENNReal.ofReal_le_ofReal_iff (sq_nonneg _), sq_le_sq, abs_of_pos hε]
    rw [h2]
    refine (meas_ge_le_lintegral_div (ENNReal.measurable_ofReal.comp
      (((hY N).sub_const y).pow_const 2)).aemeasurable (by simpa using hε.ne') ENNReal.ofReal_ne_top).trans ?_
    exact ENNReal.div_le_div_right (h N) _
  refine tendsto_of_tendsto_of_tendsto_of_le_of_le tendsto_const_nhds ?_ (fun _ => zero_le) h1
  have h3 : Tendsto (fun N => ENNReal.ofReal (C * r N)) atTop (𝓝 (ENNReal.ofReal (C * 0))) :=
    (ENNReal.continuous_ofReal.tendsto _).comp (hr.const_mul C)
  rw [mul_zero, ENNReal.ofReal_zero] at h3
  have h4 := ENNReal.Tendsto.div_const h3 (b := ENNReal.ofReal (ε ^ 2)) (.inr (by simpa using hε.ne'))
  rwa [ENNReal.zero_div] at h4

/-- C75: errors that vanish. -/
theorem consistentRuns_of_accurate {R : ∀ N : ℕ, Resampler K (N + 1) X} {dummy : X} {B : ℝ} {r : ℕ → ℝ}
    (h : ∀ N, AccurateRun rng P mdl (R N) dummy u0 us B (r N)) (hr : Tendsto r atTop (𝓝 0)) :
    ConsistentRuns rng P mdl R dummy u0 us := by
  choose S hS hA using h
  refine ⟨S, hS, fun t ht z hz hz0 ε hε => ⟨?_, fun f c hf hfc => ?_⟩⟩
  · have hη : 0 < z * (1 - Real.exp (-ε)) := by
      refine mul_pos hz0 ?_
      have : Real.exp (-ε) < 1 := by rw [Real.exp_lt_one_iff]; linarith
      linarith
    refine tendsto_of_tendsto_of_tendsto_of_le_of_le tendsto_const_nhds
      (tendsto_prob (Y := fun N k => (S N k t).logZ.lik) (y := z) (C := 2 * (t + 12) * (B ^ t) ^ 2) (r := r)
        (fun N => (hA N t ht z hz).2.1) (fun N => (hA N t ht z hz).2.2.1.trans_eq (by congr 1; ring)) hr hη)
      (fun _ => zero_le) fun N => measure_mono fun k hk => ?_
    simp only [mem_ofPred_eq] at hk ⊢
    by_contra hlt
    push Not at hlt
    apply hk
    have hlog := ((hA N t ht z hz).1 k).1
    have he : Real.exp (-ε) < 1 := by rw [Real.exp_lt_one_iff]; linarith
    have hlow : z * Real.exp (-ε) < (S N k t).logZ.lik := by
      have := (abs_lt.mp hlt).1
      nlinarith
    have hup : (S N k t).logZ.lik < z * Real.exp ε := by
      have h1 := (abs_lt.mp hlt).2
      have h2 : Real.exp (-ε) * Real.exp ε = 1 := by rw [← Real.exp_add]; simp
      have h3 : 1 < Real.exp ε := by rw [Real.one_lt_exp_iff]; exact hε
      have h4 : 2 ≤ Real.exp ε + Real.exp (-ε) := by
        nlinarith [sq_nonneg (Real.exp ε - 1), Real.exp_pos (-ε)]
      nlinarith
    cases hZ : (S N k t).logZ with
    | nan => rw [hZ] at hlog; exact hlog.elim
    | pinf => rw [hZ] at hlog; exact hlog.elim
    | ninf =>
      rw [hZ] at hlow
      simp only [Fl.lik] at hlow
      exact absurd hlow (not_lt.mpr (by positivity))
    | fin l =>
      rw [hZ] at hlow hup
      simp only [Fl.lik] at hlow hup
      refine ⟨l, rfl, ?_⟩
      have e1 := Real.log_lt_log (by positivity) hlow
      have e2 := Real.log_lt_log (Real.exp_pos l) hup
      rw [Real.log_mul hz0.ne' (Real.exp_pos _).ne', Real.log_exp, Real.log_exp] at e1 e2
      rw [abs_lt]
      constructor <;> linarith
  · exact tendsto_prob (C := 18 * (t + 12) * (B ^ t * c / z) ^ 2) (r := r)
      (fun N => ((hA N t ht z hz).2.2.2 f c hf hfc hz0).1)
      (fun N => ((hA N t ht z hz).2.2.2 f c hf hfc hz0).2.trans_eq (by congr 1; ring)) hr hε

theorem tendsto_inv_succ (θ : ℝ) : Tendsto (fun N : ℕ => 1 / (θ * ((N + 1 : ℕ) : ℝ))) atTop (𝓝 0) := by
  have h := (tendsto_one_div_add_atTop_nhds_zero_nat (𝕜 := ℝ)).const_mul (1 / θ)
  rw [mul_zero] at h
  refine h.congr fun N => ?_
  push_cast
  rw [one_div_mul_one_div]

/-- C75: the particle filter with multinomial, killing or adaptive resampling is consistent, for both kinds of
generator. -/
theorem particle_filter_consistent (h : IdealRng rng P) (hI : IndepSplit rng.toPrng P ∨ PrefixSplit rng.toPrng)
    (pf : Platform) (h0 : Measurable fun k => mdl.initSample k u0) (hu : ∀ u ∈ us, mdl.Regular u) {B : ℝ}
    (hb : ∀ u ∈ us, ∀ x x', (mdl.logPotential x x' u).lik ≤ B) (dummy : X) :
    ConsistentRuns rng P mdl (fun _ => multinomial rng pf) dummy u0 us ∧
    ConsistentRuns rng P mdl (fun _ => killing rng pf) dummy u0 us ∧
    ((∀ u ∈ us, ∀ x x', (mdl.logPotential x x' u).IsFin) → ∀ θ : ℝ, 0 < θ → θ ≤ 1 →
      ConsistentRuns rng P mdl (fun _ => adaptive (multinomial rng pf) θ) dummy u0 us ∧
      ConsistentRuns rng P mdl (fun _ => adaptive (killing rng pf) θ) dummy u0 us) := by
  have hB : 0 ≤ max B 0 := le_max_right _ _
  have hb' : ∀ u ∈ us, ∀ x x', (mdl.logPotential x x' u).lik ≤ max B 0 := fun u hu x x' =>
    (hb u hu x x').trans (le_max_left _ _)
  have h1 : Tendsto (fun N : ℕ => 1 / ((N + 1 : ℕ) : ℝ)) atTop (𝓝 0) := by simpa using tendsto_inv_succ 1
  refine ⟨?_, ?_, fun hd θ hθ hθ1 => ⟨?_, ?_⟩⟩
  · exact consistentRuns_of_accurate (fun N => multinomial_filter_accurate h hI pf h0 hu hB hb' dummy) h1
  · exact consistentRuns_of_accurate (fun N => killing_filter_accurate h hI pf h0 hu hB hb' dummy) h1
  · exact consistentRuns_of_accurate
      (fun N => adaptive_filter_accurate h hI (.inl rfl) hθ hθ1 h0 hu hd hB hb' dummy) (tendsto_inv_succ θ)
  · exact consistentRuns_of_accurate
      (fun N => adaptive_filter_accurate h hI (.inr rfl) hθ hθ1 h0 hu hd hB hb' dummy) (tendsto_inv_succ θ)

end convergence

/-- The hypotheses of C75 are met by ideal keys that split by prefix and a model with impossible moves. -/
example : ∃ rng : Rng Key, PrefixSplit rng.toPrng ∧
    ConsistentRuns rng keyLaw (exampleModel rng) (fun _ => multinomial rng .cpu) 0 0 [1, 2, 3] := by
  obtain ⟨rng, h1, h2⟩ := exists_ideal_prefix
  refine ⟨rng, h2, (particle_filter_consistent h1 (.inr h2) .cpu h1.uniform0.measurable
    (fun u _ => exampleModel_regular h1 u) (B := 1) (fun u _ x x' => ?_) 0).1⟩
  simp only [exampleModel]
  split_ifs
  · simp [Fl.lik]
  · simp only [Fl.lik, Real.exp_le_one_iff]
    nlinarith [sq_nonneg (x' - u), sq_nonneg x]

end

end Cuthbert.SMC
