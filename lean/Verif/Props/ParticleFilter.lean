import Verif.Lemmas.SMCLaw

/-!
# Properties: the particle filter (C53, C54, C60, C62)
-/

namespace Cuthbert.SMC
open MeasureTheory Set Resampling Spec
open scoped ENNReal

noncomputable section

variable {K X Inp : Type} {N : ℕ}

/-! ## C53 -/

/-- A run of the particle filter never raises, contains no `nan` or `+∞`, and at every time its
estimate of the unnormalised Feynman-Kac expectation of any function of the path is unbiased. -/
def UnbiasedRun [MeasurableSpace K] [MeasurableSpace X] (rng : Rng K) (P : Measure K) (mdl : FKModel K X Inp)
    (R : Resampler K N X) (dummy : X) (u0 : Inp) (us : List Inp) : Prop :=
  ∃ S : K → ℕ → PFState K X Inp N,
    (∀ k, filter rng.toPrng (particleFilter rng.toPrng mdl dummy N R) (u0 :: us) false (some k) =
      ⟨false, .ok ((List.range (us.length + 1)).map fun t => .ok (S k t))⟩) ∧
    (∀ k, ∀ t ≤ us.length, (S k t).logZ.IsLog ∧ (∀ i, ((S k t).logWeights i).IsLog) ∧
      (IsLogits (S k t).logWeights ∨ (S k t).logZ = Fl.ninf)) ∧
    ∀ t ≤ us.length, ∀ f : (ℕ → X) → ℝ≥0∞, Measurable f → Measurable (fun k => pathEst (S k) t f) ∧
      ∫⁻ k, pathEst (S k) t f ∂P = fkExp (mdl.init P u0) ((us.take t).map (mdl.step P)) f

section law

variable [MeasurableSpace K] [MeasurableSpace X] {P : Measure K} {rng : Rng K} {mdl : FKModel K X Inp}
  {I : K → (Fin N → Fl) → Fin N → Fin N} {L : K → (Fin N → Fl) → Fin N → Fl}

/-- With the function `1`: the expectation of `exp(log_normalizing_constant)` is the evidence. -/
theorem UnbiasedRun.evidence {R : Resampler K N X} {dummy : X} {u0 : Inp} {us : List Inp}
    (h : UnbiasedRun rng P mdl R dummy u0 us) : ∃ S : K → ℕ → PFState K X Inp N,
    (∀ k, filter rng.toPrng (particleFilter rng.toPrng mdl dummy N R) (u0 :: us) false (some k) =
      ⟨false, .ok ((List.range (us.length + 1)).map fun t => .ok (S k t))⟩) ∧
    ∀ t ≤ us.length, ∫⁻ k, ENNReal.ofReal (S k t).logZ.lik ∂P =
      fkExp (mdl.init P u0) ((us.take t).map (mdl.step P)) fun _ => 1 := by
  obtain ⟨S, h1, h2, h3⟩ := h
  refine ⟨S, h1, fun t ht => ?_⟩
  rw [← (h3 t ht (fun _ => 1) measurable_const).2]
  refine lintegral_congr fun k => ?_
  rw [pathEst]
  rcases (h2 k t ht).2.2 with h4 | h4
  · simp only [mul_one]
    rw [← ENNReal.ofReal_sum_of_nonneg fun i _ => nw_nonneg _ i, nw_sum h4, ENNReal.ofReal_one, mul_one]
  · rw [h4]
    simp [Fl.lik]

/-- C53 for a resampling function described by its indices and log-weights. Missing: the general
claim is false of the code for generators such as JAX's default one (`PrefixSplit`), because the key
of the initial state is split twice, see `particle_filter_biased`. Unbiasedness holds if splitting a
key into different numbers of keys gives independent keys, and also for prefix splitting if
resampling keeps equally weighted particles. With log potentials `-∞` the resampling function has to
return usable weights when all particles are dead, see `adaptive_dead_evidence`. -/
theorem particle_filter_unbiased_partial [NeZero N] (h : IdealRng rng P) {R : Resampler K N X}
    (hR : Uses R I L) (hU : UnbiasedWeights P I L)
    (hI : IndepSplit rng.toPrng P ∨ PrefixSplit rng.toPrng ∧ KeepsEqual P I L) {u0 : Inp}
    (h0 : Measurable fun k => mdl.initSample k u0) (us : List Inp) (hu : ∀ u ∈ us, mdl.Regular u)
    (hd : RevivesDead L ∨ ∀ u ∈ us, ∀ x x', (mdl.logPotential x x' u).IsFin) (dummy : X) :
    UnbiasedRun rng P mdl R dummy u0 us := by
  refine ⟨fun k t => pfRun rng.toPrng mdl I L u0 us k t, fun k => filter_pf_eq hR dummy u0 us k,
    fun k t ht => ?_, fun t ht f hf => ⟨measurable_pathEst h hU h0 us hu t ht hf,
      lintegral_pathEst h hU hI h0 us hu hd t ht hf⟩⟩
  have hg := pfRun_good (rng := rng.toPrng) (mdl := mdl) (I := I) hU.isLogits u0 us k
    (fun u h => (hu u h).isLog) hd t ht
  exact ⟨hg.logZ, hg.weights, hg.alive.imp_right fun h => h.2⟩

variable [NeZero N]

/-- C53 with multinomial resampling, if splits of different sizes are independent. -/
theorem multinomial_filter_unbiased_partial (h : IdealRng rng P) (hI : IndepSplit rng.toPrng P)
    (pf : Platform) {u0 : Inp} (h0 : Measurable fun k => mdl.initSample k u0) (us : List Inp)
    (hu : ∀ u ∈ us, mdl.Regular u) (dummy : X) :
    UnbiasedRun (N := N) rng P mdl (multinomial rng pf) dummy u0 us :=
  particle_filter_unbiased_partial h (uses_multinomial rng pf) (unbiasedWeights_multinomial h pf) (.inl hI)
    h0 us hu (.inl revivesDead_zero) dummy

/-- C53 with systematic resampling, for both kinds of generator. -/
theorem systematic_filter_unbiased (h : IdealRng rng P)
    (hI : IndepSplit rng.toPrng P ∨ PrefixSplit rng.toPrng)
    (pf : Platform) {u0 : Inp} (h0 : Measurable fun k => mdl.initSample k u0) (us : List Inp)
    (hu : ∀ u ∈ us, mdl.Regular u) (dummy : X) :
    UnbiasedRun (N := N) rng P mdl (systematic rng pf) dummy u0 us :=
  particle_filter_unbiased_partial h (uses_systematic rng pf) (unbiasedWeights_systematic h pf)
    (hI.imp_right fun h1 => ⟨h1, keepsEqual_systematic h pf⟩) h0 us hu (.inl revivesDead_zero) dummy

/-- C53 with killing resampling, for both kinds of generator. -/
theorem killing_filter_unbiased (h : IdealRng rng P)
    (hI : IndepSplit rng.toPrng P ∨ PrefixSplit rng.toPrng)
    (pf : Platform) {u0 : Inp} (h0 : Measurable fun k => mdl.initSample k u0) (us : List Inp)
    (hu : ∀ u ∈ us, mdl.Regular u) (dummy : X) :
    UnbiasedRun (N := N) rng P mdl (killing rng pf) dummy u0 us :=
  particle_filter_unbiased_partial h (uses_killing rng pf) (unbiasedWeights_killing h pf)
    (hI.imp_right fun h1 => ⟨h1, keepsEqual_killing rng P pf⟩) h0 us hu (.inl revivesDead_zero) dummy

/-- C53 with adaptive resampling around any of the three functions and any threshold that is at most
one, for both kinds of generator and finite log potentials. -/
theorem adaptive_filter_unbiased_partial (h : IdealRng rng P)
    (hI : IndepSplit rng.toPrng P ∨ PrefixSplit rng.toPrng) {R : Resampler K N X}
    {pf : Platform} (hR : R = multinomial rng pf ∨ R = systematic rng pf ∨ R = killing rng pf)
    {θ : ℝ} (hθ : θ ≤ 1) {u0 : Inp} (h0 : Measurable fun k => mdl.initSample k u0)
    (us : List Inp) (hu : ∀ u ∈ us, mdl.Regular u)
    (hd : ∀ u ∈ us, ∀ x x', (mdl.logPotential x x' u).IsFin) (dummy : X) :
    UnbiasedRun rng P mdl (adaptive R θ) dummy u0 us := by
  have := h.prob
  have key : ∀ I L, Uses R I L → UnbiasedWeights P I L → UnbiasedRun rng P mdl (adaptive R θ) dummy u0 us :=
    fun I L h1 h2 => particle_filter_unbiased_partial h (uses_adaptive h1 θ) (h2.adaptive θ)
      (hI.imp_right fun h3 => ⟨h3, keepsEqual_adaptive P I L hθ⟩) h0 us hu (.inr hd) dummy
  rcases hR with rfl | rfl | rfl
  · exact key _ _ (uses_multinomial rng pf) (unbiasedWeights_multinomial h pf)
  · exact key _ _ (uses_systematic rng pf) (unbiasedWeights_systematic h pf)
  · exact key _ _ (uses_killing rng pf) (unbiasedWeights_killing h pf)

end law

/-- A random walk whose moves below the input are impossible. -/
def exampleModel (rng : Rng K) : FKModel K ℝ ℝ where
  initSample k _ := rng.uniform0 k
  propagate k x _ := x + rng.uniform0 k
  logPotential x x' u := if x' < u then Fl.ninf else Fl.fin (-(x' - u) ^ 2 - x ^ 2)

theorem exampleModel_regular [MeasurableSpace K] {P : Measure K} {rng : Rng K} (h : IdealRng rng P) (u : ℝ) :
    (exampleModel rng).Regular u where
  propagate := measurable_snd.add (h.uniform0.measurable.comp measurable_fst)
  logPotential := by
    refine Measurable.ite (measurableSet_lt measurable_snd measurable_const) measurable_const ?_
    refine Fl.measurable_fin.comp ?_
    exact (((measurable_snd.sub_const u).pow_const 2).neg).sub (measurable_fst.pow_const 2)
  isLog x x' := by
    simp only [exampleModel]
    split_ifs <;> trivial

/-- The hypotheses of C53 are met by ideal keys of both kinds and a model with impossible moves. -/
example : ∃ (rng rng' : Rng Key),
    UnbiasedRun (N := 5) rng keyLaw (exampleModel rng) (multinomial rng .cpu) 0 0 [1, 2, 3] ∧
    UnbiasedRun (N := 5) rng' keyLaw (exampleModel rng') (systematic rng' .cpu) 0 0 [1, 2, 3] := by
  obtain ⟨rng, h1, h2⟩ := exists_ideal_indep
  obtain ⟨rng', h3, h4⟩ := exists_ideal_prefix
  exact ⟨rng, rng',
    multinomial_filter_unbiased_partial h1 h2 .cpu h1.uniform0.measurable _
      (fun u _ => exampleModel_regular h1 u) _,
    systematic_filter_unbiased h3 (.inr h4) .cpu h3.uniform0.measurable _
      (fun u _ => exampleModel_regular h3 u) _⟩

end

end Cuthbert.SMC
