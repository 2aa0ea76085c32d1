import Verif.Lemmas.SMCUniform
import Verif.Props.Consistency

/-!
# Properties: the error of the particle filter does not grow with the length of the series (C116)
-/

namespace Cuthbert.SMC
open MeasureTheory Set Resampling Spec Filter
open scoped ENNReal NNReal Topology

noncomputable section

variable {K X Inp : Type} {N : ℕ}

/-! ## C116 -/

/-- A run of the particle filter never raises, and at every time the expected error of its weighted average of any
bounded function of the current state is at most `err` times the bound of the function. The target is the expectation
under the normalised Feynman-Kac measure, which is the filtering distribution. -/
def UniformlyAccurateRun [MeasurableSpace K] [MeasurableSpace X] (rng : Rng K) (P : Measure K) (mdl : FKModel K X Inp)
    (R : Resampler K N X) (dummy : X) (u0 : Inp) (us : List Inp) (err : ℝ) : Prop :=
  ∃ S : K → ℕ → PFState K X Inp N,
    (∀ k, filter rng.toPrng (particleFilter rng.toPrng mdl dummy N R) (u0 :: us) false (some k) =
      ⟨false, .ok ((List.range (us.length + 1)).map fun t => .ok (S k t))⟩) ∧
    ∀ t ≤ us.length, ∀ (f : X → ℝ) (c : ℝ), Measurable f → (∀ x, |f x| ≤ c) →
      Measurable (fun k => ∑ i, nw (S k t).logWeights i * f ((S k t).particles i)) ∧
      ∫⁻ k, ENNReal.ofReal |∑ i, nw (S k t).logWeights i * f ((S k t).particles i) -
          fkMean (mdl.init P u0) ((us.take t).map (mdl.step P)) fun p => f (p t)| ∂P ≤ ENNReal.ofReal (err * c)

theorem UniformlyAccurateRun.mono [MeasurableSpace K] [MeasurableSpace X] {rng : Rng K} {P : Measure K}
    {mdl : FKModel K X Inp} {R : Resampler K N X} {dummy : X} {u0 : Inp} {us : List Inp} {err err' : ℝ}
    (h : UniformlyAccurateRun rng P mdl R dummy u0 us err) (hle : err ≤ err') :
    UniformlyAccurateRun rng P mdl R dummy u0 us err' := by
  obtain ⟨S, h1, h2⟩ := h
  refine ⟨S, h1, fun t ht f c hf hfc => ⟨(h2 t ht f c hf hfc).1, (h2 t ht f c hf hfc).2.trans ?_⟩⟩
  have hc : 0 ≤ c := (abs_nonneg _).trans (hfc dummy)
  exact ENNReal.ofReal_le_ofReal (by gcongr)

section law

variable [MeasurableSpace K] [MeasurableSpace X] {P : Measure K} {rng : Rng K} {mdl : FKModel K X Inp}
  {I : K → (Fin N → Fl) → Fin N → Fin N} {L : K → (Fin N → Fl) → Fin N → Fl} {u0 : Inp} {us : List Inp} {r b : ℝ≥0}

omit [MeasurableSpace K] [MeasurableSpace X] in
theorem avgE_sub (c : Core X N) (f : X → ℝ) :
    ∑ i, nw c.2.1 i * f (c.1 i) = (avgE (fun x => ENNReal.ofReal (f x)) c).toReal -
      (avgE (fun x => ENNReal.ofReal (-f x)) c).toReal := by
  have key : ∀ g : X → ℝ, (avgE (fun x => ENNReal.ofReal (g x)) c).toReal =
      ∑ i, nw c.2.1 i * max (g (c.1 i)) 0 := by
    intro g
    rw [avgE, ENNReal.toReal_sum fun i _ => ENNReal.mul_ne_top ENNReal.ofReal_ne_top ENNReal.ofReal_ne_top]
    refine Finset.sum_congr rfl fun i _ => ?_
    rw [ENNReal.toReal_mul, ENNReal.toReal_ofReal (nw_nonneg _ i), ENNReal.toReal_ofReal']
  rw [key f, key fun x => -f x, ← Finset.sum_sub_distrib]
  refine Finset.sum_congr rfl fun i _ => ?_
  rw [← mul_sub]
  congr 1
  rcases le_total 0 (f (c.1 i)) with h | h
  · rw [max_eq_left h, max_eq_right (by linarith), sub_zero]
  · rw [max_eq_right h, max_eq_left (by linarith)]
    ring

/-- C116 for a resampling function that concentrates. `v` is of the order of `1 / √N`. -/
theorem uniformlyAccurate_of_bounds [NeZero N] {R : Resampler K N X} (hU : Uses R I L) (h : IdealRng rng P)
    (hR : UnbiasedWeights P I L) {κ δ : ℝ≥0∞} (hK : Concentrates P I L κ) (hF : FirstStep rng.toPrng P I L δ)
    (hδ : (N : ℝ≥0∞)⁻¹ ≤ δ) {v : ℝ} (hv : 0 ≤ v) (hκ : 2 * κ ≤ ENNReal.ofReal (v ^ 2))
    (hδv : 3 * δ ≤ ENNReal.ofReal (v ^ 2)) (hr : 1 ≤ r) (hb : 1 ≤ b) (h0 : Measurable fun k => mdl.initSample k u0)
    (hu : ∀ u ∈ us, mdl.Regular u) (hq : ∀ u ∈ us, (mdl.step P u).Forgets r b)
    (hd : ∀ u ∈ us, ∀ x x', (mdl.logPotential x x' u).IsFin) (dummy : X) :
    UniformlyAccurateRun rng P mdl R dummy u0 us (4 * b * r ^ 3 * v) := by
  have := h.prob
  refine ⟨fun k t => pfRun rng.toPrng mdl I L u0 us k t, fun k => filter_pf_eq hU dummy u0 us k, ?_⟩
  intro t ht f c hf hfc
  have hc : 0 ≤ c := (abs_nonneg _).trans (hfc dummy)
  have hq' : ∀ u ∈ us, ForgetsQ P mdl u r b := fun u hu' => forgetsQ (hu u hu') (hq u hu')
  have hcore : ∀ k, (pfRun rng.toPrng mdl I L u0 us k t).core =
      coreAt rng.toPrng mdl I L us t (rng.nth k (us.length + 1) 0)
        (coreInit mdl u0 (rng.nth (rng.nth k (us.length + 1) 0) N)) (Fin.tail (rng.nth k (us.length + 1))) := fun k =>
    core_pfAt us t _ _
  have hsum : ∀ k, ∑ i, nw (pfRun rng.toPrng mdl I L u0 us k t).logWeights i *
      f ((pfRun rng.toPrng mdl I L u0 us k t).particles i) =
      (avgE (fun x => ENNReal.ofReal (f x)) (pfRun rng.toPrng mdl I L u0 us k t).core).toReal -
      (avgE (fun x => ENNReal.ofReal (-f x)) (pfRun rng.toPrng mdl I L u0 us k t).core).toReal := fun k =>
    avgE_sub (pfRun rng.toPrng mdl I L u0 us k t).core f
  have mp : Measurable fun x => ENNReal.ofReal (f x) := ENNReal.measurable_ofReal.comp hf
  have mm : Measurable fun x => ENNReal.ofReal (-f x) := ENNReal.measurable_ofReal.comp hf.neg
  have mrun : ∀ g : X → ℝ≥0∞, Measurable g → Measurable fun k =>
      (avgE g (pfRun rng.toPrng mdl I L u0 us k t).core).toReal := by
    intro g hg
    simp only [hcore]
    exact ((measurable_avgE hg).comp ((measurable_runCore h hR h0 us t hu).comp
      (measurable_nthAll h (us.length + 1)))).ennreal_toReal
  simp only [hsum]
  refine ⟨(mrun _ mp).sub (mrun _ mm), ?_⟩
  -- the target
  obtain ⟨z, hz⟩ : ∃ z, z = (∫⁻ x, fkG P mdl (fun _ => 1) us t x ∂mdl.init P u0).toReal := ⟨_, rfl⟩
  have hexp : ∀ g : X → ℝ≥0∞, Measurable g → fkExp (mdl.init P u0) ((us.take t).map (mdl.step P)) (fun p => g (p t)) =
      ∫⁻ x, fkG P mdl g us t x ∂mdl.init P u0 := fun g hg =>
    lintegral_congr fun x => (fkG_eq hg us t x ht hu).symm
  have hmean : fkMean (mdl.init P u0) ((us.take t).map (mdl.step P)) (fun p => f (p t)) =
      (∫⁻ x, fkG P mdl (fun x => ENNReal.ofReal (f x)) us t x ∂mdl.init P u0).toReal / z -
      (∫⁻ x, fkG P mdl (fun x => ENNReal.ofReal (-f x)) us t x ∂mdl.init P u0).toReal / z := by
    rw [fkMean, hexp _ mp, hexp _ mm, hexp _ measurable_const, ← hz, sub_div]
  rw [hmean]
  -- the error of a nonnegative function
  have key : ∀ g : X → ℝ≥0∞, Measurable g → (∀ x, g x ≤ ENNReal.ofReal c) →
      ∫⁻ k, ENNReal.ofReal |(avgE g (pfRun rng.toPrng mdl I L u0 us k t).core).toReal -
        (∫⁻ x, fkG P mdl g us t x ∂mdl.init P u0).toReal / z| ∂P ≤ ENNReal.ofReal (2 * v * b * r ^ 3 * c) := by
    intro g hg hgc
    have h1 := error_run_le h hR hK hF hδ hv hκ hδv hr hb h0 hg hc hgc us t ht hu hq' hd
    rw [← hz] at h1
    have h2 : Measurable fun c : Core X N => ENNReal.ofReal |(avgE g c).toReal -
        (∫⁻ x, fkG P mdl g us t x ∂mdl.init P u0).toReal / z| :=
      ENNReal.measurable_ofReal.comp (continuous_abs.measurable.comp ((measurable_avgE hg).ennreal_toReal.sub_const _))
    simp only [hcore]
    exact (lintegral_runCore h hR h0 us t hu h2).trans_le h1
  have k1 := key _ mp fun x => ENNReal.ofReal_le_ofReal ((le_abs_self _).trans (hfc x))
  have k2 := key _ mm fun x => ENNReal.ofReal_le_ofReal ((neg_le_abs _).trans (hfc x))
  have m1 : ∀ (g : X → ℝ≥0∞) (y : ℝ), Measurable g → Measurable fun k =>
      ENNReal.ofReal |(avgE g (pfRun rng.toPrng mdl I L u0 us k t).core).toReal - y| := fun g y hg =>
    ENNReal.measurable_ofReal.comp (continuous_abs.measurable.comp ((mrun g hg).sub_const y))
  calc _ ≤ ∫⁻ k, ENNReal.ofReal |(avgE (fun x => ENNReal.ofReal (f x)) (pfRun rng.toPrng mdl I L u0 us k t).core).toReal -
          (∫⁻ x, fkG P mdl (fun x => ENNReal.ofReal (f x)) us t x ∂mdl.init P u0).toReal / z| +
        ENNReal.ofReal |(avgE (fun x => ENNReal.ofReal (-f x)) (pfRun rng.toPrng mdl I L u0 us k t).core).toReal -
          (∫⁻ x, fkG P mdl (fun x => ENNReal.ofReal (-f x)) us t x ∂mdl.init P u0).toReal / z| ∂P := by
        refine lintegral_mono fun k => ?_
        rw [← ENNReal.ofReal_add (abs_nonneg _) (abs_nonneg _)]
        refine ENNReal.ofReal_le_ofReal ?_
        rw [sub_sub_sub_comm]
        exact abs_sub _ _
    _ ≤ ENNReal.ofReal (2 * v * b * r ^ 3 * c) + ENNReal.ofReal (2 * v * b * r ^ 3 * c) := by
        rw [lintegral_add_left (m1 _ _ mp)]
        exact add_le_add k1 k2
    _ = _ := by
        rw [← ENNReal.ofReal_add (by positivity) (by positivity)]
        congr 1
        ring

variable [NeZero N]

theorem uniform_bounds {r0 : ℝ} (hr0 : 0 ≤ r0) {κ δ : ℝ≥0∞} (hκ : κ ≤ ENNReal.ofReal r0)
    (hδ : δ ≤ 8 * ENNReal.ofReal r0) :
    2 * κ ≤ ENNReal.ofReal (Real.sqrt (24 * r0) ^ 2) ∧ 3 * δ ≤ ENNReal.ofReal (Real.sqrt (24 * r0) ^ 2) := by
  rw [Real.sq_sqrt (by positivity), ENNReal.ofReal_mul (by norm_num)]
  have h24 : ENNReal.ofReal 24 = 24 := by simp
  rw [h24]
  constructor
  · calc _ ≤ 2 * ENNReal.ofReal r0 := by gcongr
      _ ≤ _ := by gcongr; norm_num
  · calc _ ≤ 3 * (8 * ENNReal.ofReal r0) := by gcongr
      _ = _ := by ring

/-- C116 with multinomial resampling, for both kinds of generator. -/
theorem multinomial_filter_uniform (h : IdealRng rng P) (hI : IndepSplit rng.toPrng P ∨ PrefixSplit rng.toPrng)
    (pf : Platform) (hr : 1 ≤ r) (hb : 1 ≤ b) (h0 : Measurable fun k => mdl.initSample k u0)
    (hu : ∀ u ∈ us, mdl.Regular u) (hq : ∀ u ∈ us, (mdl.step P u).Forgets r b)
    (hd : ∀ u ∈ us, ∀ x x', (mdl.logPotential x x' u).IsFin) (dummy : X) :
    UniformlyAccurateRun (N := N) rng P mdl (multinomial rng pf) dummy u0 us
      (4 * b * r ^ 3 * Real.sqrt (24 * (1 / N))) := by
  have := h.prob
  have hf : FirstStep rng.toPrng P (fun k (l : Fin N → Fl) => multinomialIdx rng pf l N k) zeroLogits
      (8 * (N : ℝ≥0∞)⁻¹) := by
    rcases hI with hI | hI
    · refine (firstStep_indep (unbiasedWeights_multinomial h pf) (concentrates_multinomial h pf) hI).mono ?_
      rw [show (N : ℝ≥0∞)⁻¹ + 2 * (N : ℝ≥0∞)⁻¹ = 3 * (N : ℝ≥0∞)⁻¹ by ring]
      gcongr
      norm_num
    · exact firstStep_multinomial h hI pf
  have hbd := uniform_bounds (r0 := 1 / N) (by positivity) (κ := (N : ℝ≥0∞)⁻¹) (δ := 8 * (N : ℝ≥0∞)⁻¹)
    (by rw [ofReal_inv_natCast]) (by rw [ofReal_inv_natCast])
  exact uniformlyAccurate_of_bounds (uses_multinomial rng pf) h (unbiasedWeights_multinomial h pf)
    (concentrates_multinomial h pf) hf (le_mul_of_one_le_left' (by norm_num)) (Real.sqrt_nonneg _) hbd.1 hbd.2 hr hb
    h0 hu hq hd dummy

/-- C116 with killing resampling, for both kinds of generator. -/
theorem killing_filter_uniform (h : IdealRng rng P) (hI : IndepSplit rng.toPrng P ∨ PrefixSplit rng.toPrng)
    (pf : Platform) (hr : 1 ≤ r) (hb : 1 ≤ b) (h0 : Measurable fun k => mdl.initSample k u0)
    (hu : ∀ u ∈ us, mdl.Regular u) (hq : ∀ u ∈ us, (mdl.step P u).Forgets r b)
    (hd : ∀ u ∈ us, ∀ x x', (mdl.logPotential x x' u).IsFin) (dummy : X) :
    UniformlyAccurateRun (N := N) rng P mdl (killing rng pf) dummy u0 us
      (4 * b * r ^ 3 * Real.sqrt (24 * (1 / N))) := by
  have := h.prob
  have hf : FirstStep rng.toPrng P (fun k (l : Fin N → Fl) => killingIdx rng pf l k) zeroLogits
      (8 * (N : ℝ≥0∞)⁻¹) := by
    rcases hI with hI | hI
    · refine (firstStep_indep (unbiasedWeights_killing h pf) (concentrates_killing h pf) hI).mono ?_
      rw [show (N : ℝ≥0∞)⁻¹ + 2 * (N : ℝ≥0∞)⁻¹ = 3 * (N : ℝ≥0∞)⁻¹ by ring]
      gcongr
      norm_num
    · refine (firstStep_keeps h hI (keepsEqual_killing rng P pf)).mono ?_
      gcongr
      norm_num
  have hbd := uniform_bounds (r0 := 1 / N) (by positivity) (κ := (N : ℝ≥0∞)⁻¹) (δ := 8 * (N : ℝ≥0∞)⁻¹)
    (by rw [ofReal_inv_natCast]) (by rw [ofReal_inv_natCast])
  exact uniformlyAccurate_of_bounds (uses_killing rng pf) h (unbiasedWeights_killing h pf)
    (concentrates_killing h pf) hf (le_mul_of_one_le_left' (by norm_num)) (Real.sqrt_nonneg _) hbd.1 hbd.2 hr hb
    h0 hu hq hd dummy

/-- C116 with adaptive resampling around multinomial or killing resampling, for both kinds of generator. -/
theorem adaptive_filter_uniform (h : IdealRng rng P) (hI : IndepSplit rng.toPrng P ∨ PrefixSplit rng.toPrng)
    {R : Resampler K N X} {pf : Platform} (hR : R = multinomial rng pf ∨ R = killing rng pf) {θ : ℝ} (hθ : 0 < θ)
    (hθ1 : θ ≤ 1) (hr : 1 ≤ r) (hb : 1 ≤ b) (h0 : Measurable fun k => mdl.initSample k u0)
    (hu : ∀ u ∈ us, mdl.Regular u) (hq : ∀ u ∈ us, (mdl.step P u).Forgets r b)
    (hd : ∀ u ∈ us, ∀ x x', (mdl.logPotential x x' u).IsFin) (dummy : X) :
    UniformlyAccurateRun rng P mdl (adaptive R θ) dummy u0 us
      (4 * b * r ^ 3 * Real.sqrt (24 * (1 / (θ * N)))) := by
  have := h.prob
  have hN : (0 : ℝ) < N := by exact_mod_cast NeZero.pos N
  have hle : (N : ℝ≥0∞)⁻¹ ≤ ENNReal.ofReal (1 / (θ * N)) := by
    rw [← ofReal_inv_natCast]
    refine ENNReal.ofReal_le_ofReal (one_div_le_one_div_of_le (by positivity) ?_)
    nlinarith
  have hmax : max (N : ℝ≥0∞)⁻¹ (ENNReal.ofReal (θ * N)⁻¹) = ENNReal.ofReal (1 / (θ * N)) := by
    rw [← one_div (θ * (N : ℝ))]
    exact max_eq_right hle
  have key : ∀ I, Uses R I zeroLogits → UnbiasedWeights P I zeroLogits →
      Concentrates P I zeroLogits (N : ℝ≥0∞)⁻¹ →
      UniformlyAccurateRun rng P mdl (adaptive R θ) dummy u0 us (4 * b * r ^ 3 * Real.sqrt (24 * (1 / (θ * N)))) := by
    intro I h1 h2 h3
    have hc := h3.adaptive hθ
    rw [hmax] at hc
    have hf : FirstStep rng.toPrng P (adaptIdx I θ) (adaptLogits zeroLogits θ)
        (8 * ENNReal.ofReal (1 / (θ * N))) := by
      rcases hI with hI | hI
      · refine (firstStep_indep (h2.adaptive θ) hc hI).mono ?_
        calc _ ≤ ENNReal.ofReal (1 / (θ * N)) + 2 * ENNReal.ofReal (1 / (θ * N)) := by gcongr
          _ = 3 * ENNReal.ofReal (1 / (θ * N)) := by ring
          _ ≤ _ := by gcongr; norm_num
      · refine (firstStep_keeps h hI (keepsEqual_adaptive P I zeroLogits hθ1)).mono ?_
        gcongr
        norm_num
    have hbd := uniform_bounds (r0 := 1 / (θ * N)) (by positivity) (κ := ENNReal.ofReal (1 / (θ * N)))
      (δ := 8 * ENNReal.ofReal (1 / (θ * N))) le_rfl le_rfl
    exact uniformlyAccurate_of_bounds (uses_adaptive h1 θ) h (h2.adaptive θ) hc hf
      (hle.trans (le_mul_of_one_le_left' (by norm_num))) (Real.sqrt_nonneg _) hbd.1 hbd.2 hr hb h0 hu hq hd dummy
  rcases hR with rfl | rfl
  · exact key _ (uses_multinomial rng pf) (unbiasedWeights_multinomial h pf) (concentrates_multinomial h pf)
  · exact key _ (uses_killing rng pf) (unbiasedWeights_killing h pf) (concentrates_killing h pf)

end law

/-! ### One number of particles for all series -/

theorem sqrt_tendsto (C θ : ℝ) (ε : ℝ) (hε : 0 < ε) :
    ∃ n : ℕ, ∀ N : ℕ, n ≤ N → C * Real.sqrt (24 * (1 / (θ * ((N + 1 : ℕ) : ℝ)))) ≤ ε := by
  have h1 := (((tendsto_inv_succ θ).const_mul 24).sqrt).const_mul C
  simp only [mul_zero, Real.sqrt_zero] at h1
  obtain ⟨n, hn⟩ := (h1.eventually (gt_mem_nhds hε)).exists_forall_of_atTop
  exact ⟨n, fun N hN => (hn N hN).le⟩

/-- C116: a number of particles is enough for a given accuracy at every time of every series, whatever its length. -/
theorem particle_filter_uniform [MeasurableSpace K] [MeasurableSpace X] {P : Measure K} {rng : Rng K}
    {mdl : FKModel K X Inp} {r b : ℝ≥0} (h : IdealRng rng P)
    (hI : IndepSplit rng.toPrng P ∨ PrefixSplit rng.toPrng) (pf : Platform) (hr : 1 ≤ r) (hb : 1 ≤ b)
    (h0 : ∀ u, Measurable fun k => mdl.initSample k u) (hu : ∀ u, mdl.Regular u)
    (hq : ∀ u, (mdl.step P u).Forgets r b) (hd : ∀ u x x', (mdl.logPotential x x' u).IsFin) (dummy : X) {ε : ℝ}
    (hε : 0 < ε) {θ : ℝ} (hθ : 0 < θ) (hθ1 : θ ≤ 1) :
    ∃ n : ℕ, ∀ N : ℕ, n ≤ N → ∀ (u0 : Inp) (us : List Inp),
      UniformlyAccurateRun (N := N + 1) rng P mdl (multinomial rng pf) dummy u0 us ε ∧
      UniformlyAccurateRun (N := N + 1) rng P mdl (killing rng pf) dummy u0 us ε ∧
      UniformlyAccurateRun (N := N + 1) rng P mdl (adaptive (multinomial rng pf) θ) dummy u0 us ε ∧
      UniformlyAccurateRun (N := N + 1) rng P mdl (adaptive (killing rng pf) θ) dummy u0 us ε := by
  obtain ⟨n1, h1⟩ := sqrt_tendsto (4 * b * r ^ 3) 1 ε hε
  obtain ⟨n2, h2⟩ := sqrt_tendsto (4 * b * r ^ 3) θ ε hε
  refine ⟨max n1 n2, fun N hN u0 us => ?_⟩
  have e1 := h1 N ((le_max_left _ _).trans hN)
  have e2 := h2 N ((le_max_right _ _).trans hN)
  rw [one_mul] at e1
  refine ⟨?_, ?_, ?_, ?_⟩
  · exact (multinomial_filter_uniform h hI pf hr hb (h0 u0) (fun u _ => hu u) (fun u _ => hq u) (fun u _ => hd u)
      dummy).mono e1
  · exact (killing_filter_uniform h hI pf hr hb (h0 u0) (fun u _ => hu u) (fun u _ => hq u) (fun u _ => hd u)
      dummy).mono e1
  · exact (adaptive_filter_uniform h hI (.inl rfl) hθ hθ1 hr hb (h0 u0) (fun u _ => hu u) (fun u _ => hq u)
      (fun u _ => hd u) dummy).mono e2
  · exact (adaptive_filter_uniform h hI (.inr rfl) hθ hθ1 hr hb (h0 u0) (fun u _ => hu u) (fun u _ => hq u)
      (fun u _ => hd u) dummy).mono e2

/-! ### When a model forgets -/

/-- Transition laws from different states that differ by at most a factor `s`, and weights between `lo` and `hi`. -/
theorem forgets_of_bounds {E : Type*} [MeasurableSpace E] {step : FKStep E} {s lo hi : ℝ≥0}
    (hk : ∀ x, IsProbabilityMeasure (step.kernel x)) (hs : ∀ x y A, step.kernel x A ≤ s * step.kernel y A)
    (hlo : 0 < lo) (hp : ∀ x x', lo ≤ step.pot x x' ∧ step.pot x x' ≤ hi) :
    step.Forgets (s * (hi / lo)) (hi / lo) := by
  have hlo' : (lo : ℝ≥0∞) ≠ 0 := by simpa using hlo.ne'
  have hdiv : ∀ a : ℝ≥0∞, (hi : ℝ≥0∞) * a = ((hi / lo : ℝ≥0) : ℝ≥0∞) * (lo * a) := by
    intro a
    rw [← mul_assoc, ← ENNReal.coe_mul, div_mul_cancel₀ _ hlo.ne']
  have hmean : ∀ y, (lo : ℝ≥0∞) ≤ ∫⁻ x', step.pot y x' ∂step.kernel y := by
    intro y
    have := hk y
    calc (lo : ℝ≥0∞) = ∫⁻ _, lo ∂step.kernel y := by rw [lintegral_const, measure_univ, mul_one]
      _ ≤ _ := lintegral_mono fun x' => (hp y x').1
  refine ⟨fun f hf x y => ?_, fun x x' y => ?_, fun x => ?_, fun x => ?_⟩
  · calc ∫⁻ x', step.pot x x' * f x' ∂step.kernel x ≤ ∫⁻ x', hi * f x' ∂step.kernel x :=
          lintegral_mono fun x' => mul_le_mul_left (hp x x').2 _
      _ = hi * ∫⁻ x', f x' ∂step.kernel x := lintegral_const_mul' _ _ ENNReal.coe_ne_top
      _ ≤ hi * ∫⁻ x', f x' ∂((s : ℝ≥0∞) • step.kernel y) := by
          refine mul_le_mul_right (lintegral_mono' (Measure.le_iff'.mpr fun A => ?_) le_rfl) _
          rw [Measure.smul_apply, smul_eq_mul]
          exact hs x y A
      _ = s * (hi * ∫⁻ x', f x' ∂step.kernel y) := by
          rw [lintegral_smul_measure, smul_eq_mul]
          ring
      _ = s * (((hi / lo : ℝ≥0) : ℝ≥0∞) * ∫⁻ x', lo * f x' ∂step.kernel y) := by
          rw [hdiv, lintegral_const_mul' _ _ ENNReal.coe_ne_top]
      _ ≤ s * (((hi / lo : ℝ≥0) : ℝ≥0∞) * ∫⁻ x', step.pot y x' * f x' ∂step.kernel y) := by
          refine mul_le_mul_right (mul_le_mul_right (lintegral_mono fun x' => ?_) _) _
          exact mul_le_mul_left (hp y x').1 _
      _ = _ := by rw [← mul_assoc, ENNReal.coe_mul]
  · refine (hp x x').2.trans ?_
    have h1 := hdiv 1
    rw [mul_one, mul_one] at h1
    rw [h1]
    exact mul_le_mul_right (hmean y) _
  · exact fun h => hlo' (nonpos_iff_eq_zero.mp (h ▸ hmean x))
  · have := hk x
    refine ne_top_of_le_ne_top (b := (hi : ℝ≥0∞)) ENNReal.coe_ne_top ?_
    refine (lintegral_mono fun x' => (hp x x').2).trans_eq ?_
    rw [lintegral_const, measure_univ, mul_one]

/-- A model on the line whose proposals are fresh, and whose potential prefers moves to the right that stay below the
input. -/
def restartModel (rng : Rng Key) : FKModel Key ℝ ℝ where
  initSample k _ := rng.uniform0 k
  propagate k _ _ := rng.uniform0 k
  logPotential x x' u := .fin (if x' < x then -1 else if u < x' then -1 / 2 else 0)

theorem restartModel_regular {rng : Rng Key} (h1 : IdealRng rng keyLaw) (u : ℝ) : (restartModel rng).Regular u := by
  refine ⟨h1.uniform0.measurable.comp measurable_fst, ?_, fun _ _ => trivial⟩
  refine Fl.measurable_fin.comp (Measurable.ite (measurableSet_lt measurable_snd measurable_fst) measurable_const
    (Measurable.ite (measurableSet_lt measurable_const measurable_snd) measurable_const measurable_const))

theorem restartModel_forgets {rng : Rng Key} (h1 : IdealRng rng keyLaw) (u : ℝ) :
    ((restartModel rng).step keyLaw u).Forgets (1 * (1 / (Real.exp (-1)).toNNReal)) (1 / (Real.exp (-1)).toNNReal) := by
  have := h1.prob
  have hpot : ∀ u x x' : ℝ, Real.exp (-1) ≤ ((restartModel rng).logPotential x x' u).lik ∧
      ((restartModel rng).logPotential x x' u).lik ≤ 1 := by
    intro u x x'
    simp only [restartModel, Fl.lik, Real.exp_le_exp, Real.exp_le_one_iff]
    split_ifs <;> norm_num
  refine forgets_of_bounds (fun x => ?_) (fun x y A => ?_) (Real.toNNReal_pos.mpr (Real.exp_pos (-1))) fun x x' =>
    ⟨?_, ?_⟩
  · exact Measure.isProbabilityMeasure_map h1.uniform0.measurable.aemeasurable
  · rw [ENNReal.coe_one, one_mul]
    exact le_rfl
  · exact ENNReal.ofReal_le_ofReal (hpot u x x').1
  · have := ENNReal.ofReal_le_ofReal (hpot u x x').2
    rwa [ENNReal.ofReal_one] at this

theorem one_le_restart : (1 : ℝ≥0) ≤ 1 / (Real.exp (-1)).toNNReal := by
  rw [one_div]
  refine (one_le_inv₀ (Real.toNNReal_pos.mpr (Real.exp_pos (-1)))).mpr ?_
  exact Real.toNNReal_le_one.mpr (Real.exp_le_one_iff.mpr (by norm_num))

/-- The hypotheses of C116 are met by ideal keys that split by prefix. -/
example : ∃ rng : Rng Key, PrefixSplit rng.toPrng ∧ ∃ n : ℕ, ∀ N : ℕ, n ≤ N → ∀ (u0 : ℝ) (us : List ℝ),
    UniformlyAccurateRun (N := N + 1) rng keyLaw (restartModel rng) (multinomial rng .cpu) 0 u0 us (1 / 100) := by
  obtain ⟨rng, h1, h2⟩ := exists_ideal_prefix
  obtain ⟨n, hn⟩ := particle_filter_uniform h1 (.inr h2) .cpu (by rw [one_mul]; exact one_le_restart) one_le_restart
    (fun _ => h1.uniform0.measurable) (restartModel_regular h1) (restartModel_forgets h1) (fun _ _ _ => trivial) 0
    (ε := 1 / 100) (by norm_num) (θ := 1) one_pos le_rfl
  exact ⟨rng, h2, n, fun N hN u0 us => (hn N hN u0 us).1⟩

end

end Cuthbert.SMC
