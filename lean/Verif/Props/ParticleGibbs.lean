import Verif.Lemmas.ParticleGibbs
import Verif.Lemmas.ConditionalResamplers
import Verif.Props.MCMCUnbiased

/-!
# Properties: particle Gibbs sampling with the conditional resampling functions (C126)
-/

namespace Cuthbert.SMC
open MeasureTheory Set Resampling Spec
open scoped ENNReal

noncomputable section

variable {K X Inp : Type} {N n : ℕ}

section main

variable [MeasurableSpace K] [MeasurableSpace X] {P : Measure K} {rng : Rng K} {mdl : FKModel K X Inp}
  {C : K → (Fin N → Fl) → Fin N → Fin N → Fin N → Fin N} {Cr : CondResampler K N X}

/-- The initial state of the conditional filter. -/
def condInit (rng : Prng K) (mdl : FKModel K X Inp) (N : ℕ) (u0 : Inp) (k : K) (b0 : Fin N) (x0 : X) : PFState K X Inp N :=
  { pfInit rng mdl N u0 k with particles := Function.update (pfInit rng mdl N u0 k).particles b0 x0 }

/-- The run of the conditional filter. -/
def condRun (rng : Prng K) (mdl : FKModel K X Inp) (C : K → (Fin N → Fl) → Fin N → Fin N → Fin N → Fin N) (u0 : Inp)
    (us : List Inp) (x : ℕ → X) (b : Fin (us.length + 1) → Fin N) (k : K) : ℕ → PFState K X Inp N :=
  condAt rng mdl C x us 0 b (Fin.tail (rng.nth k (us.length + 1)))
    (condInit rng mdl N u0 (rng.nth k (us.length + 1) 0) (b 0) (x 0))

omit [MeasurableSpace K] [MeasurableSpace X] in
theorem conditionalFilter_eq [NeZero N] {rng : Prng K} (hC : CondUses Cr C) (u0 : Inp) (us : List Inp) (x : ℕ → X)
    (b : Fin (us.length + 1) → Fin N) (k : K) :
    conditionalFilter rng mdl Cr u0 us x b k = .ok ((List.range (us.length + 1)).map (condRun rng mdl C u0 us x b k)) := by
  rw [conditionalFilter]
  simp only [initPrepare_eq]
  exact conditionalSteps_eq hC x us 0 b _ _

/-- The history of a run of the conditional filter. -/
def condRunHist (rng : Prng K) (mdl : FKModel K X Inp) (C : K → (Fin N → Fl) → Fin N → Fin N → Fin N → Fin N) (u0 : Inp)
    (us : List Inp) (x : ℕ → X) (b : Fin (us.length + 1) → Fin N) (k : K) : ℕ → Hist X N :=
  condHist rng mdl C x us 0 b (Fin.tail (rng.nth k (us.length + 1)))
    (initHist (Function.update (fun i => mdl.initSample (rng.nth (rng.nth k (us.length + 1) 0) N i) u0) (b 0) (x 0)))

omit [MeasurableSpace K] [MeasurableSpace X] in
theorem condRunHist_eq {rng : Prng K} (u0 : Inp) (us : List Inp) (x : ℕ → X) (b : Fin (us.length + 1) → Fin N) (k : K)
    (t : ℕ) (ht : t ≤ us.length) : condRunHist rng mdl C u0 us x b k t = (condRun rng mdl C u0 us x b k t).hist := by
  have h1 := condHist_condAt (rng := rng) (mdl := mdl) (C := C) x us 0 b (Fin.tail (rng.nth k (us.length + 1)))
    (initHist (Function.update (fun i => mdl.initSample (rng.nth (rng.nth k (us.length + 1) 0) N i) u0) (b 0) (x 0)))
    (condInit rng mdl N u0 (rng.nth k (us.length + 1) 0) (b 0) (x 0)) t rfl ht
  rw [zero_add] at h1
  exact h1

omit [MeasurableSpace K] [MeasurableSpace X] in
theorem condRunHist_alive [NeZero N] {rng : Prng K} (u0 : Inp) (us : List Inp) (x : ℕ → X)
    (b : Fin (us.length + 1) → Fin N) (k : K) (hf : ∀ u ∈ us, ∀ x x', (mdl.logPotential x x' u).IsFin)
    (t : ℕ) (ht : t ≤ us.length) : Alive (condRunHist rng mdl C u0 us x b k t).1 := by
  have h1 := condHist_alive (rng := rng) (mdl := mdl) (C := C) x us 0 b (Fin.tail (rng.nth k (us.length + 1)))
    (initHist (Function.update (fun i => mdl.initSample (rng.nth (rng.nth k (us.length + 1) 0) N i) u0) (b 0) (x 0)))
    hf ⟨isLogits_zero, trivial⟩ t ht
  rw [zero_add] at h1
  exact h1

/-- The expectation over the key of the conditional filter. -/
theorem lintegral_condRun (h : IdealRng rng P) (hC : ConditionalLaw P C) {u0 : Inp}
    (h0 : Measurable fun k => mdl.initSample k u0) {Φ : (ℕ → Hist X N) → ℝ≥0∞} (hΦ : Measurable Φ) (us : List Inp)
    (hu : ∀ u ∈ us, mdl.Regular u) (x : ℕ → X) (b : Fin (us.length + 1) → Fin N) :
    ∫⁻ k, Φ (condRunHist rng.toPrng mdl C u0 us x b k) ∂P = condTotal P mdl C u0 us Φ b x := by
  have := h.prob
  obtain ⟨H0, hH0⟩ : ∃ H0 : (Fin N → K) → ℕ → Hist X N, H0 = fun a =>
    initHist (Function.update (fun i => mdl.initSample (a i) u0) (b 0) (x 0)) := ⟨_, rfl⟩
  have hH0m : Measurable H0 := by
    rw [hH0]
    exact measurable_initHist (measurable_init_update h0 (b 0) measurable_id measurable_const)
  have h1 : Measurable fun keys : Fin (us.length + 1) → K => Φ (condHist rng.toPrng mdl C x us 0 b (Fin.tail keys)
      (H0 (rng.nth (keys 0) N))) := by
    have h2 : Measurable fun keys : Fin (us.length + 1) → K => (Fin.tail keys, H0 (rng.nth (keys 0) N)) :=
      (measurable_pi_iff.mpr fun i => measurable_pi_apply i.succ).prodMk
        (hH0m.comp ((measurable_nthAll h N).comp (measurable_pi_apply 0)))
    exact hΦ.comp ((measurable_condHist h hC x us 0 b hu).comp h2)
  have h2 : ∫⁻ k, Φ (condRunHist rng.toPrng mdl C u0 us x b k) ∂P = ∫⁻ keys : Fin (us.length + 1) → K,
      Φ (condHist rng.toPrng mdl C x us 0 b (Fin.tail keys) (H0 (rng.nth (keys 0) N))) ∂(Measure.pi fun _ => P) := by
    rw [← (h.split (us.length + 1)).lintegral_comp h1, hH0]
    rfl
  rw [h2, lintegral_pi_cons P h1]
  simp only [Fin.cons_zero, Fin.tail_cons]
  have h3 := fun H => lintegral_condHist h hC x hΦ us 0 b H hu
  simp only [h3]
  have h4 : Measurable fun a : Fin N → K => condExp P mdl C Φ us 0 b (H0 a) x := by
    have h5 : Measurable fun a : Fin N → K => (H0 a, x) := hH0m.prodMk measurable_const
    exact (measurable_condExp hC hΦ us 0 b hu).comp h5
  refine ((h.split N).lintegral_comp h4).trans ?_
  rw [condTotal, hH0]

/-- C126, for any backward sampler whose steps are exact. -/
theorem gibbs_invariant [NeZero N] [NeZero n] (h : IdealRng rng P) (hCr : CondUses Cr C) (hC : ConditionalLaw P C)
    {u0 u : Inp} {us : List Inp} (h0 : Measurable fun k => mdl.initSample k u0) (hu : ∀ v ∈ u :: us, mdl.Regular v)
    (hf : ∀ v ∈ u :: us, ∀ x x', (mdl.logPotential x x' v).IsFin) {pf : Platform} {R : Resampler K N X}
    {sampler : BackwardSampler K X N} {B : BackIdx K X N} (hS : SamplesBy sampler B)
    (hR : R = multinomial rng pf ∨ R = systematic rng pf ∨ n = N ∧ R = killing rng pf)
    (inputsOf : Except Err (PFState K X Inp N) → Inp) (dummyInp : Inp → Except Err Inp)
    (logPotential : X → X → Inp → Fl) {d d' : Inp} (hdd : dummyInp u = .ok d) (hdd' : dummyInp d = .ok d')
    (hB : ∀ t, InvariantSampler P n (usedDensity logPotential (u :: us) d' t) B)
    (hstep : ∀ s (hs : s < (u :: us).length), BackwardDensity (mdl.step P (u :: us)[s])
      (usedDensity logPotential (u :: us) d' s) ∨ B = tracingIdx) :
    ∃ (S : (ℕ → X) → (Fin ((u :: us).length + 1) → Fin N) → K → ℕ → PFState K X Inp N)
      (p : (ℕ → X) → (Fin ((u :: us).length + 1) → Fin N) → K → K → Fin n → ℕ → X),
      (∀ x b k, conditionalFilter rng.toPrng mdl Cr u0 (u :: us) x b k = .ok ((List.range (us.length + 2)).map (S x b k))) ∧
      (∀ x b k k', SmootherReturns rng.toPrng inputsOf dummyInp
        (particleSmoother rng.toPrng dummyInp logPotential sampler R n) (S x b k) (u :: us) k' (p x b k k')) ∧
      ∀ f : (ℕ → X) → ℝ≥0∞, Measurable f → ∀ j,
        fkExp (mdl.init P u0) ((u :: us).map (mdl.step P)) ((gibbsSweep P p)^[j] f) =
          fkExp (mdl.init P u0) ((u :: us).map (mdl.step P)) f := by
  have := h.prob
  have halive := fun x b k => condRunHist_alive (rng := rng.toPrng) (C := C) u0 (u :: us) x b k hf
  have hhist := fun x b k t ht => condRunHist_eq (mdl := mdl) (rng := rng.toPrng) (C := C) u0 (u :: us) x b k t ht
  have key := fun x b k => inv_smoother_given_filter (n := n) h (condRun rng.toPrng mdl C u0 (u :: us) x b k) hS hR
    inputsOf dummyInp logPotential hdd hdd' hB (.inl fun t ht => by
      have h1 := (halive x b k t ht).weights
      rw [hhist x b k t ht] at h1
      exact h1)
  choose p hp1 hp2 using key
  obtain ⟨κ, hκ⟩ : ∃ κ : ℕ → Core X N → X → Fin N → Fin N → ℝ≥0∞,
    κ = fun t => slotLaw P B (usedDensity logPotential (u :: us) d' t) (0 : Fin n) := ⟨_, rfl⟩
  have hκm : ∀ s < (u :: us).length, ∀ i j, Measurable fun q : Core X N × X => κ s q.1 q.2 i j := fun s _ => by
    rw [hκ]
    exact ((hB s).kernel (0 : Fin n)).measurable
  -- the expectation over the key of the smoother
  have hsel : ∀ f x b k, ∫⁻ k', (∑ m, f (p x b k k' m)) / n ∂P =
      selExp κ (condRunHist rng.toPrng mdl C u0 (u :: us) x b k) (u :: us).length f := by
    intro f x b k
    have h1 := hp2 x b k f
    have h2 := (halive x b k (us.length + 1) le_rfl).logZ
    rw [hhist x b k (us.length + 1) le_rfl] at h2
    have h3 : ((condRun rng.toPrng mdl C u0 (u :: us) x b k (us.length + 1)).logZ).IsFin := h2
    have h4 : ENNReal.ofReal (condRun rng.toPrng mdl C u0 (u :: us) x b k (us.length + 1)).logZ.lik ≠ 0 := by
      cases hz : (condRun rng.toPrng mdl C u0 (u :: us) x b k (us.length + 1)).logZ with
      | fin r => simp [Fl.lik, Real.exp_pos]
      | nan => rw [hz] at h3; exact h3.elim
      | pinf => rw [hz] at h3; exact h3.elim
      | ninf => rw [hz] at h3; exact h3.elim
    rw [lintegral_const_mul' _ _ ENNReal.ofReal_ne_top, invEst] at h1
    have h5 := (ENNReal.mul_right_inj h4 ENNReal.ofReal_ne_top).mp h1
    rw [h5, selExp]
    refine Finset.sum_congr rfl fun i _ => ?_
    rw [List.length_cons, hhist x b k (us.length + 1) le_rfl, hκ]
    congr 1
    exact invExp_congr _ i _ _ (fun s hs => by rw [hhist x b k s hs])
      (fun s _ hs => by rw [hhist x b k s hs]) fun q _ => rfl
  have hsweep : ∀ f, Measurable f → gibbsSweep P p f = fun x => ∑ b : Fin ((u :: us).length + 1) → Fin N,
      ((N : ℝ≥0∞)⁻¹) ^ ((u :: us).length + 1) *
        condTotal P mdl C u0 (u :: us) (fun H => selExp κ H (u :: us).length f) b x := by
    intro f hfm
    funext x
    rw [gibbsSweep]
    refine Finset.sum_congr rfl fun b _ => ?_
    simp only [hsel]
    rw [lintegral_condRun h hC h0 (measurable_selExp hκm hfm) (u :: us) hu x b]
  have hmeas : ∀ f, Measurable f → Measurable (gibbsSweep P p f) := by
    intro f hfm
    rw [hsweep f hfm]
    exact Finset.measurable_sum _ fun b _ =>
      (measurable_condTotal hC h0 (measurable_selExp hκm hfm) (u :: us) b hu).const_mul _
  obtain ⟨I, hI, hM⟩ := exists_marginal h hC
  have hexact : ∀ s (hs : s < (u :: us).length), StepExact P mdl I κ s (u :: us)[s] := by
    intro s hs
    rcases hstep s hs with h1 | h1
    · refine stepExact_invariant hI (hu _ (List.getElem_mem hs)) h1 ?_
      rw [hκ]
      exact (hB s).kernel (0 : Fin n)
    · refine stepExact_tracing hI (hu _ (List.getElem_mem hs)) fun c x' i j => ?_
      rw [hκ, h1]
      simp only [slotLaw, tracingIdx]
      split_ifs with hij
      · simp [hij]
      · simp [hij]
  have hinv : ∀ f, Measurable f → fkExp (mdl.init P u0) ((u :: us).map (mdl.step P)) (gibbsSweep P p f) =
      fkExp (mdl.init P u0) ((u :: us).map (mdl.step P)) f := by
    intro f hfm
    rw [hsweep f hfm]
    exact fkExp_sweep hC hM hI.measurable_idx h0 (u :: us) hu hf hκm hexact hfm
  refine ⟨condRun rng.toPrng mdl C u0 (u :: us), p, fun x b k => conditionalFilter_eq hCr u0 (u :: us) x b k, hp1,
    fun f hfm j => ?_⟩
  induction j generalizing f with
  | zero => rfl
  | succ j ih => rw [Function.iterate_succ_apply, ih _ (hmeas f hfm), hinv f hfm]

/-- The three conditional resampling functions of the library. -/
def IsConditionalScheme [NeZero N] (rng : Rng K) (pf : Platform) (Cr : CondResampler K N X) : Prop :=
  Cr = multinomialConditional rng pf ∨ Cr = systematicConditional rng pf ∨ Cr = killingConditional rng pf

omit [MeasurableSpace X] in
theorem IsConditionalScheme.law [NeZero N] (h : IdealRng rng P) {pf : Platform} (hCr : IsConditionalScheme rng pf Cr) :
    ∃ C, CondUses Cr C ∧ ConditionalLaw P C := by
  rcases hCr with rfl | rfl | rfl
  · exact ⟨_, condUses_multinomial rng pf, conditionalLaw_multinomial h pf⟩
  · exact ⟨_, condUses_systematic rng pf, conditionalLaw_systematic h pf⟩
  · exact ⟨_, condUses_killing rng pf, conditionalLaw_killing h pf⟩

variable [NeZero N] [NeZero n]

/-- C126: start from a path of the smoothing distribution. Give its states uniform random slots, run a particle filter
with a conditional resampling function that keeps the path in these slots, trace the ancestors of the final particles
back, and pick one of the traced paths. The new path is again distributed according to the smoothing distribution, and
so is the path after any number of such sweeps, for any number `N ≥ 1` of particles. -/
theorem particle_gibbs_tracing (h : IdealRng rng P) {pf : Platform} (hCr : IsConditionalScheme rng pf Cr)
    {u0 u : Inp} {us : List Inp} (h0 : Measurable fun k => mdl.initSample k u0) (hu : ∀ v ∈ u :: us, mdl.Regular v)
    (hf : ∀ v ∈ u :: us, ∀ x x', (mdl.logPotential x x' v).IsFin) {R : Resampler K N X}
    (hR : R = multinomial rng pf ∨ R = systematic rng pf ∨ n = N ∧ R = killing rng pf)
    (inputsOf : Except Err (PFState K X Inp N) → Inp) (dummyInp : Inp → Except Err Inp)
    (logPotential : X → X → Inp → Fl) {d d' : Inp} (hdd : dummyInp u = .ok d) (hdd' : dummyInp d = .ok d') :
    ∃ (S : (ℕ → X) → (Fin ((u :: us).length + 1) → Fin N) → K → ℕ → PFState K X Inp N)
      (p : (ℕ → X) → (Fin ((u :: us).length + 1) → Fin N) → K → K → Fin n → ℕ → X),
      (∀ x b k, conditionalFilter rng.toPrng mdl Cr u0 (u :: us) x b k = .ok ((List.range (us.length + 2)).map (S x b k))) ∧
      (∀ x b k k', SmootherReturns rng.toPrng inputsOf dummyInp
        (particleSmoother rng.toPrng dummyInp logPotential tracing R n) (S x b k) (u :: us) k' (p x b k k')) ∧
      ∀ f : (ℕ → X) → ℝ≥0∞, Measurable f → ∀ j,
        fkExp (mdl.init P u0) ((u :: us).map (mdl.step P)) ((gibbsSweep P p)^[j] f) =
          fkExp (mdl.init P u0) ((u :: us).map (mdl.step P)) f := by
  have := h.prob
  obtain ⟨C, h1, h2⟩ := hCr.law h
  exact gibbs_invariant h h1 h2 h0 hu hf samplesBy_tracing hR inputsOf dummyInp logPotential hdd hdd'
    (fun t => invariantSampler_tracing _) fun _ _ => .inr rfl

/-- C126, with exact backward sampling. -/
theorem particle_gibbs_exact (h : IdealRng rng P) {pf : Platform} (hCr : IsConditionalScheme rng pf Cr)
    {u0 u : Inp} {us : List Inp} (h0 : Measurable fun k => mdl.initSample k u0) (hu : ∀ v ∈ u :: us, mdl.Regular v)
    (hf : ∀ v ∈ u :: us, ∀ x x', (mdl.logPotential x x' v).IsFin) {R : Resampler K N X}
    (hR : R = multinomial rng pf ∨ R = systematic rng pf ∨ n = N ∧ R = killing rng pf)
    (inputsOf : Except Err (PFState K X Inp N) → Inp) (dummyInp : Inp → Except Err Inp)
    (logPotential : X → X → Inp → Fl)
    (hlp : ∀ v ∈ u :: us, ∀ w, BackwardDensity (mdl.step P v) fun x x' => logPotential x x' w)
    {d d' : Inp} (hdd : dummyInp u = .ok d) (hdd' : dummyInp d = .ok d') :
    ∃ (S : (ℕ → X) → (Fin ((u :: us).length + 1) → Fin N) → K → ℕ → PFState K X Inp N)
      (p : (ℕ → X) → (Fin ((u :: us).length + 1) → Fin N) → K → K → Fin n → ℕ → X),
      (∀ x b k, conditionalFilter rng.toPrng mdl Cr u0 (u :: us) x b k = .ok ((List.range (us.length + 2)).map (S x b k))) ∧
      (∀ x b k k', SmootherReturns rng.toPrng inputsOf dummyInp
        (particleSmoother rng.toPrng dummyInp logPotential (exact rng) R n) (S x b k) (u :: us) k' (p x b k k')) ∧
      ∀ f : (ℕ → X) → ℝ≥0∞, Measurable f → ∀ j,
        fkExp (mdl.init P u0) ((u :: us).map (mdl.step P)) ((gibbsSweep P p)^[j] f) =
          fkExp (mdl.init P u0) ((u :: us).map (mdl.step P)) f := by
  have := h.prob
  obtain ⟨C, h1, h2⟩ := hCr.law h
  exact gibbs_invariant h h1 h2 h0 hu hf (samplesBy_exact rng) hR inputsOf dummyInp logPotential hdd hdd'
    (fun t => invariantSampler_exact h (hlp u (by simp) _).isLog (hlp u (by simp) _).measurable)
    fun s hs => .inl (hlp _ (List.getElem_mem hs) _)

/-- C126, with MCMC backward sampling and a symmetric transition density, for any number of MCMC steps. -/
theorem particle_gibbs_mcmc (h : IdealRng rng P) {pf : Platform} (hCr : IsConditionalScheme rng pf Cr)
    {u0 u : Inp} {us : List Inp} (h0 : Measurable fun k => mdl.initSample k u0) (hu : ∀ v ∈ u :: us, mdl.Regular v)
    (hf : ∀ v ∈ u :: us, ∀ x x', (mdl.logPotential x x' v).IsFin) {R : Resampler K N X}
    (hR : R = multinomial rng pf ∨ R = systematic rng pf ∨ n = N ∧ R = killing rng pf)
    (inputsOf : Except Err (PFState K X Inp N) → Inp) (dummyInp : Inp → Except Err Inp)
    (logPotential : X → X → Inp → Fl)
    (hlp : ∀ v ∈ u :: us, ∀ w, BackwardDensity (mdl.step P v) fun x x' => logPotential x x' w)
    (hsym : ∀ x x' w, logPotential x x' w = logPotential x' x w)
    {d d' : Inp} (hdd : dummyInp u = .ok d) (hdd' : dummyInp d = .ok d') (nSteps : ℕ) :
    ∃ (S : (ℕ → X) → (Fin ((u :: us).length + 1) → Fin N) → K → ℕ → PFState K X Inp N)
      (p : (ℕ → X) → (Fin ((u :: us).length + 1) → Fin N) → K → K → Fin n → ℕ → X),
      (∀ x b k, conditionalFilter rng.toPrng mdl Cr u0 (u :: us) x b k = .ok ((List.range (us.length + 2)).map (S x b k))) ∧
      (∀ x b k k', SmootherReturns rng.toPrng inputsOf dummyInp
        (particleSmoother rng.toPrng dummyInp logPotential (mcmc rng pf nSteps) R n) (S x b k) (u :: us) k'
          (p x b k k')) ∧
      ∀ f : (ℕ → X) → ℝ≥0∞, Measurable f → ∀ j,
        fkExp (mdl.init P u0) ((u :: us).map (mdl.step P)) ((gibbsSweep P p)^[j] f) =
          fkExp (mdl.init P u0) ((u :: us).map (mdl.step P)) f := by
  have := h.prob
  obtain ⟨C, h1, h2⟩ := hCr.law h
  exact gibbs_invariant h h1 h2 h0 hu hf (samplesBy_mcmc rng pf nSteps) hR inputsOf dummyInp logPotential hdd hdd'
    (fun t => invariantSampler_mcmc h pf nSteps (hlp u (by simp) _).isLog (hlp u (by simp) _).measurable
      fun x x' => hsym x x' _)
    fun s hs => .inl (hlp _ (List.getElem_mem hs) _)

end main

/-- A random walk with symmetric moves and finite log potentials. -/
def smoothWalk (rng : Rng K) : FKModel K ℝ ℝ where
  initSample k _ := rng.uniform0 k
  propagate k x _ := x - 1 / 2 + rng.uniform0 k
  logPotential _ x' u := Fl.fin (-(x' - u) ^ 2)

section example_

variable [MeasurableSpace K] {P : Measure K} {rng : Rng K} (h : IdealRng rng P)

include h

theorem smoothWalk_regular (u : ℝ) : (smoothWalk rng).Regular u where
  propagate := (measurable_snd.sub_const _).add (h.uniform0.measurable.comp measurable_fst)
  logPotential := Fl.measurable_fin.comp ((measurable_snd.sub_const u).pow_const 2).neg
  isLog _ _ := trivial

theorem smoothWalk_density (v : ℝ) : BackwardDensity ((smoothWalk rng).step P v)
    fun x x' => if |x - x'| ≤ 1 / 2 then Fl.fin 0 else Fl.ninf where
  isLog x x' := by split_ifs <;> trivial
  measurable := by
    refine Measurable.ite ?_ measurable_const measurable_const
    exact measurableSet_le (measurable_fst.sub measurable_snd).abs measurable_const
  density := by
    have hq : Measurable fun x' : ℝ => Fl.fin (-(x' - v) ^ 2) :=
      Fl.measurable_fin.comp ((measurable_id.sub_const v).pow_const 2).neg
    have hqm : Measurable fun x' : ℝ =>
        ENNReal.ofReal (Fl.fin (-(x' - v) ^ 2)).lik :=
      ENNReal.measurable_ofReal.comp (Fl.measurable_lik.comp hq)
    refine ⟨volume.withDensity fun x' => ENNReal.ofReal (Fl.fin (-(x' - v) ^ 2)).lik,
      fun x => ?_⟩
    have h1 : ((smoothWalk rng).step P v).kernel x = volume.restrict (Icc (x - 1 / 2) (x + 1 / 2)) := by
      change P.map (fun k => x - 1 / 2 + rng.uniform0 k) = _
      have h2 : P.map (fun k => x - 1 / 2 + rng.uniform0 k) = (P.map rng.uniform0).map fun y => x - 1 / 2 + y :=
        (Measure.map_map (measurable_const_add _) h.uniform0.measurable).symm
      rw [h2, h.uniform0.map_eq, unif]
      have h3 : Ico (0 : ℝ) 1 = (fun y => x - 1 / 2 + y) ⁻¹' Ico (x - 1 / 2) (x + 1 / 2) := by
        ext y
        simp only [mem_Ico, mem_preimage]
        constructor <;> rintro ⟨h4, h5⟩ <;> constructor <;> linarith
      rw [h3, ← Measure.restrict_map (measurable_const_add _) measurableSet_Ico, map_add_left_eq_self]
      exact Measure.restrict_congr_set Ico_ae_eq_Icc
    have h4 : Measurable fun x' : ℝ => ENNReal.ofReal (if |x - x'| ≤ 1 / 2 then Fl.fin 0 else Fl.ninf).lik := by
      refine ENNReal.measurable_ofReal.comp (Fl.measurable_lik.comp ?_)
      refine Measurable.ite ?_ measurable_const measurable_const
      exact measurableSet_le (measurable_const.sub measurable_id).abs measurable_const
    rw [h1, ← withDensity_indicator measurableSet_Icc, ← withDensity_mul _ hqm h4]
    congr 1
    funext x'
    have h6 : x' ∈ Icc (x - 1 / 2) (x + 1 / 2) ↔ |x - x'| ≤ 1 / 2 := by
      rw [mem_Icc, abs_le]
      constructor <;> rintro ⟨h4, h5⟩ <;> constructor <;> linarith
    simp only [indicator_apply, h6, Pi.mul_apply, FKModel.step, smoothWalk]
    by_cases h5 : |x - x'| ≤ 1 / 2
    · rw [if_pos h5, if_pos h5]
      simp [Fl.lik]
    · rw [if_neg h5, if_neg h5]
      simp [Fl.lik]

end example_

/-- The hypotheses of C126: 5 filter and 7 smoother particles, 3 MCMC steps, systematic conditional resampling. -/
example : ∃ rng : Rng Key, ∃ (S : (ℕ → ℝ) → (Fin 3 → Fin 5) → Key → ℕ → PFState Key ℝ ℝ 5)
    (p : (ℕ → ℝ) → (Fin 3 → Fin 5) → Key → Key → Fin 7 → ℕ → ℝ),
    (∀ x b k, conditionalFilter rng.toPrng (smoothWalk rng) (systematicConditional rng .cpu) 0 [1, 2] x b k =
      .ok ((List.range 3).map (S x b k))) ∧
    (∀ x b k k', SmootherReturns rng.toPrng (fun _ => 0) (fun _ => .ok 0)
      (particleSmoother rng.toPrng (fun _ => .ok 0)
        (fun x x' _ => if |x - x'| ≤ 1 / 2 then Fl.fin 0 else Fl.ninf) (mcmc rng .cpu 3)
        (systematic rng .cpu) 7) (S x b k) [1, 2] k' (p x b k k')) ∧
    ∀ f : (ℕ → ℝ) → ℝ≥0∞, Measurable f → ∀ j,
      fkExp ((smoothWalk rng).init keyLaw 0) ([1, 2].map ((smoothWalk rng).step keyLaw)) ((gibbsSweep keyLaw p)^[j] f) =
        fkExp ((smoothWalk rng).init keyLaw 0) ([1, 2].map ((smoothWalk rng).step keyLaw)) f := by
  obtain ⟨rng, h1, -⟩ := exists_ideal_prefix
  exact ⟨rng, particle_gibbs_mcmc (N := 5) (n := 7) (mdl := smoothWalk rng) (u0 := 0) (us := [2]) h1 (pf := .cpu)
    (.inr (.inl rfl)) h1.uniform0.measurable (fun v _ => smoothWalk_regular h1 v) (fun _ _ _ _ => trivial)
    (.inr (.inl rfl)) (fun _ => 0) (fun _ => .ok 0) (fun x x' _ => if |x - x'| ≤ 1 / 2 then Fl.fin 0 else Fl.ninf)
    (fun v _ _ => smoothWalk_density h1 v) (fun x x' _ => by rw [abs_sub_comm]) rfl rfl 3⟩

end

end Cuthbert.SMC
