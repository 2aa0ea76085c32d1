import Verif.Lemmas.ConditionalFilter
import Verif.Lemmas.SMCResamplers

/-!
# Lemmas about the particle Gibbs sampler
-/

namespace Cuthbert.SMC
open MeasureTheory Set Resampling Spec
open scoped ENNReal

noncomputable section

variable {K X Inp : Type} {N n : ℕ}

/-! ### Unconditional indices -/

section marginal

variable [MeasurableSpace K] {P : Measure K} {rng : Rng K} {C : K → (Fin N → Fl) → Fin N → Fin N → Fin N → Fin N}

/-- A pair of keys from one key. -/
theorem measurePreserving_two (h : IdealRng rng P) :
    MeasurePreserving (fun k => (rng.nth k 2 0, rng.nth k 2 1)) P (P.prod P) := by
  have := h.prob
  exact (measurePreserving_finTwoArrow P).comp (h.split 2)

/-- Drawing the particle of slot `0` first, and then the conditional indices. -/
theorem exists_marginal [NeZero N] (h : IdealRng rng P) (hC : ConditionalLaw P C) :
    ∃ I : K → (Fin N → Fl) → Fin N → Fin N, UnbiasedWeights P I zeroLogits ∧ MarginalOf P C I := by
  have := h.prob
  obtain ⟨μ, hμ⟩ := hC.law
  obtain ⟨c, hc⟩ : ∃ c : K → (Fin N → Fl) → Fin N, c = fun k l => rng.choice k N (Resampling.weights l) := ⟨_, rfl⟩
  have hcm : Measurable fun q : K × (Fin N → Fl) => c q.1 q.2 := by
    rw [hc]
    have h1 : Measurable fun q : K × (Fin N → Fl) => (q.1, Resampling.weights q.2) :=
      measurable_fst.prodMk (measurable_weights.comp measurable_snd)
    exact (h.choice_measurable N).comp h1
  have hcP : ∀ l, IsLogits l → ∀ b, P {k | c k l = b} = ENNReal.ofReal (nw l b) := by
    intro l hl b
    rw [hc]
    have h1 : Resampling.weights l = fun i => Fl.fin (nw l i) := funext fun i => weights_eq hl i
    simp only [h1]
    exact h.choice N _ (fun i => nw_nonneg l i) (nw_sum hl) b
  obtain ⟨D, hD⟩ : ∃ D : (K × K) × (Fin N → Fl) → Fin N → Fin N, D = fun q => C q.1.2 q.2 0 (c q.1.1 q.2) := ⟨_, rfl⟩
  have hDm : Measurable D := by
    rw [hD]
    have h1 : Measurable fun q : (K × (Fin N → Fl)) × Fin N => C q.1.1 q.1.2 0 q.2 :=
      measurable_from_prod_countable_left fun b => hC.measurable 0 b
    have h2 : Measurable fun q : (K × K) × (Fin N → Fl) => (q.1.1, q.2) :=
      (measurable_fst.comp measurable_fst).prodMk measurable_snd
    have h3 : Measurable fun q : (K × K) × (Fin N → Fl) => c q.1.1 q.2 := hcm.comp h2
    have h4 : Measurable fun q : (K × K) × (Fin N → Fl) => ((q.1.2, q.2), c q.1.1 q.2) :=
      ((measurable_snd.comp measurable_fst).prodMk measurable_snd).prodMk h3
    exact h1.comp h4
  have hImeas : Measurable fun q : K × (Fin N → Fl) => D ((rng.nth q.1 2 0, rng.nth q.1 2 1), q.2) := by
    have h1 : Measurable fun q : K × (Fin N → Fl) => ((rng.nth q.1 2 0, rng.nth q.1 2 1), q.2) :=
      (((h.measurable_nth 2 0).comp measurable_fst).prodMk ((h.measurable_nth 2 1).comp measurable_fst)).prodMk
        measurable_snd
    exact hDm.comp h1
  have hlaw : ∀ l, IsLogits l → ∀ a, P {k | D ((rng.nth k 2 0, rng.nth k 2 1), l) = a} = μ l a := by
    intro l hl a
    have h1 : Measurable fun q : K × K => D (q, l) := by
      have h2 : Measurable fun q : K × K => (q, l) := measurable_id.prodMk measurable_const
      exact hDm.comp h2
    have h2 : MeasurableSet {q : K × K | D (q, l) = a} := h1 (measurableSet_singleton a)
    have h3 := (measurePreserving_two h).measure_preimage h2.nullMeasurableSet
    refine h3.trans ?_
    rw [Measure.prod_apply h2]
    have h4 : ∀ k, P (Prod.mk k ⁻¹' {q : K × K | D (q, l) = a}) =
        ∑ b, {k | c k l = b}.indicator (fun _ => P {k' | C k' l 0 b = a}) k := by
      intro k
      rw [Finset.sum_eq_single (c k l)]
      · rw [indicator_of_mem (by rfl), hD]
        rfl
      · intro b _ hb
        refine indicator_of_notMem (s := {k | c k l = b}) (fun h' => hb ?_) _
        exact Eq.symm h'
      · simp
    have h5 : ∀ b, MeasurableSet {k | c k l = b} := fun b => by
      have h6 : Measurable fun k : K => (k, l) := measurable_id.prodMk measurable_const
      have h7 : Measurable fun k => c k l := hcm.comp h6
      exact h7 (measurableSet_singleton b)
    rw [lintegral_congr h4, lintegral_finsetSum' _ fun b _ => ((measurable_const.indicator (h5 b))).aemeasurable]
    have h6 : ∀ b, ∫⁻ k, {k | c k l = b}.indicator (fun _ => P {k' | C k' l 0 b = a}) k ∂P =
        if a 0 = b then μ l a else 0 := fun b => by
      rw [lintegral_indicator (h5 b), lintegral_const, Measure.restrict_apply_univ, hcP l hl b, mul_comm, hμ l hl 0 b a]
    simp only [h6, Finset.sum_ite_eq, Finset.mem_univ, if_true]
  have hM : MarginalOf P C fun k l => D ((rng.nth k 2 0, rng.nth k 2 1), l) := by
    intro l hl b' b a
    rw [hμ l hl b' b a, hlaw l hl a]
  refine ⟨fun k l => D ((rng.nth k 2 0, rng.nth k 2 1), l), UnbiasedWeights.of_mean hImeas fun l hl i => ?_, hM⟩
  have h1 : ∀ m, P {k | D ((rng.nth k 2 0, rng.nth k 2 1), l) m = i} = ENNReal.ofReal (nw l i) := by
    intro m
    have h2 : Measurable fun k => D ((rng.nth k 2 0, rng.nth k 2 1), l) := by
      have h3 : Measurable fun k : K => (k, l) := measurable_id.prodMk measurable_const
      exact hImeas.comp h3
    have h3 : P {k | D ((rng.nth k 2 0, rng.nth k 2 1), l) m = i} =
        ∑ a : Fin N → Fin N, if a m = i then P {k | D ((rng.nth k 2 0, rng.nth k 2 1), l) = a} else 0 := by
      have h4 : {k | D ((rng.nth k 2 0, rng.nth k 2 1), l) m = i} =
          ⋃ a ∈ Finset.univ.filter fun a : Fin N → Fin N => a m = i,
            {k | D ((rng.nth k 2 0, rng.nth k 2 1), l) = a} := by
        ext k
        simp
      rw [h4, measure_biUnion_finset, Finset.sum_filter]
      · intro a _ a' _ haa
        refine Set.disjoint_left.mpr fun k hk hk' => haa ?_
        exact (Eq.symm hk).trans hk'
      · exact fun a _ => h2 (measurableSet_singleton a)
    rw [h3]
    have h5 : ∀ a : Fin N → Fin N, (if a m = i then P {k | D ((rng.nth k 2 0, rng.nth k 2 1), l) = a} else 0) =
        ENNReal.ofReal (nw l i) * P {k | C k l m i = a} := fun a => (hM l hl m i a).symm
    simp only [h5]
    rw [← Finset.mul_sum]
    have h6 : ∑ a : Fin N → Fin N, P {k | C k l m i = a} = 1 := by
      have h7 : Measurable fun k => C k l m i := by
        have h8 : Measurable fun k : K => (k, l) := measurable_id.prodMk measurable_const
        exact (hC.measurable m i).comp h8
      have h8 : (univ : Set K) = ⋃ a ∈ (Finset.univ : Finset (Fin N → Fin N)), {k | C k l m i = a} := by
        ext k
        simp
      rw [← measure_univ (μ := P), h8, measure_biUnion_finset]
      · intro a _ a' _ haa
        refine Set.disjoint_left.mpr fun k hk hk' => haa ?_
        exact (Eq.symm hk).trans hk'
      · exact fun a _ => h7 (measurableSet_singleton a)
    rw [h6, mul_one]
  simp only [h1]
  simp

end marginal

/-! ### Steps -/

section exact

variable [MeasurableSpace K] [MeasurableSpace X] {P : Measure K} {mdl : FKModel K X Inp}
  {I : K → (Fin N → Fl) → Fin N → Fin N}

omit [MeasurableSpace X] in
theorem Alive.good {c : Core X N} (hc : Alive c) {d : Prop} : Good d c := ⟨hc.weights.1, hc.logZ.isLog, .inl hc.weights⟩

/-- Moves that leave the backward distributions invariant. -/
theorem stepExact_invariant [IsProbabilityMeasure P] [NeZero N] (hI : UnbiasedWeights P I zeroLogits) {u : Inp}
    (hu : mdl.Regular u) {ld : X → X → Fl} {κ : ℕ → Core X N → X → Fin N → Fin N → ℝ≥0∞} {t : ℕ}
    (hld : BackwardDensity (mdl.step P u) ld) (hκ : InvariantKernel ld (κ t)) : StepExact P mdl I κ t u :=
  fun _ hψ _ hH => lintegral_invEst_step hI hu hld hκ hψ hH.good

/-- Moves that stay at the parent. -/
theorem stepExact_tracing [IsProbabilityMeasure P] [NeZero N] (hI : UnbiasedWeights P I zeroLogits) {u : Inp}
    (hu : mdl.Regular u) {κ : ℕ → Core X N → X → Fin N → Fin N → ℝ≥0∞} {t : ℕ}
    (hκ : ∀ c x' i j, κ t c x' i j = if i = j then 1 else 0) : StepExact P mdl I κ t u := by
  intro ψ hψ H hH
  obtain ⟨Ψ, hΨ⟩ : ∃ Ψ : X × Fin N → ℝ≥0∞, Ψ = fun q => invExp κ H t q.2 fun p => ψ (splice t p q.1) := ⟨_, rfl⟩
  have hsec : ∀ p, Measurable fun x' => ψ (splice t p x') := fun p =>
    hψ.comp ((measurable_splice t).comp (measurable_const.prodMk measurable_id))
  have hΨm : Measurable Ψ := by
    rw [hΨ]
    exact measurable_from_prod_countable_left fun i => measurable_invExp_fixed t i (fun x' p => ψ (splice t p x')) hsec
  have h1 : ∀ ks, invEst κ (Function.update H (t + 1) (stepH mdl I zeroLogits u ks (H t).1)) (t + 1) ψ =
      ENNReal.ofReal (coreStep mdl I zeroLogits u ks (H t).1).2.2.lik * ∑ i,
        ENNReal.ofReal (nw (coreStep mdl I zeroLogits u ks (H t).1).2.1 i) *
          Ψ ((coreStep mdl I zeroLogits u ks (H t).1).1 i, I (ks 0) (H t).1.2.1 i) := by
    intro ks
    rw [invEst, Function.update_self]
    refine congrArg _ (Finset.sum_congr rfl fun i _ => ?_)
    refine congrArg _ ?_
    rw [invExp, Function.update_self, Function.update_of_ne (by omega), hΨ]
    simp only [hκ, ite_mul, one_mul, zero_mul, Finset.sum_ite_eq, Finset.mem_univ, if_true]
    exact invExp_congr t _ _ _ (fun s hs => by rw [Function.update_of_ne (by omega)])
      (fun s _ hs => by rw [Function.update_of_ne (by omega)]) fun p _ => rfl
  simp only [h1]
  rw [lintegral_stepH hI hu hΨm hH.good, invEst]
  congr 1
  refine Finset.sum_congr rfl fun i _ => ?_
  congr 1
  rw [hΨ]
  have hk' : ∀ (x : X) (p : ℕ → X), Measurable fun k =>
      ENNReal.ofReal (mdl.logPotential x (mdl.propagate k x u) u).lik *
      ψ (splice t p (mdl.propagate k x u)) := fun x p => by
    have h2 : Measurable fun k : K => (x, k) := measurable_const.prodMk measurable_id
    exact (measurable_weighted hu (hsec p)).comp h2
  rw [fkQ]
  simp only [← invExp_const_mul]
  rw [← invExp_lintegral P t i (fun k p => ENNReal.ofReal (mdl.logPotential ((H t).1.1 i)
    (mdl.propagate k ((H t).1.1 i) u) u).lik * ψ (splice t p (mdl.propagate k ((H t).1.1 i) u))) fun p => hk' _ p]
  refine invExp_congr t i _ _ (fun _ _ => rfl) (fun _ _ _ => rfl) fun p hp => ?_
  rw [pathQ, fkQ, hp t le_rfl]

end exact

/-! ### A sweep -/

/-- The expectation over a path selected from a run. -/
def selExp (κ : ℕ → Core X N → X → Fin N → Fin N → ℝ≥0∞) (H : ℕ → Hist X N) (t : ℕ) (ψ : (ℕ → X) → ℝ≥0∞) : ℝ≥0∞ :=
  ∑ i, ENNReal.ofReal (nw (H t).1.2.1 i) * invExp κ H t i ψ

section sweep

variable [MeasurableSpace K] [MeasurableSpace X] {P : Measure K} {rng : Rng K} {mdl : FKModel K X Inp}
  {I : K → (Fin N → Fl) → Fin N → Fin N} {C : K → (Fin N → Fl) → Fin N → Fin N → Fin N → Fin N}

omit [MeasurableSpace K] in
theorem measurable_selExp {κ : ℕ → Core X N → X → Fin N → Fin N → ℝ≥0∞} {t : ℕ}
    (hκ : ∀ s < t, ∀ i j, Measurable fun q : Core X N × X => κ s q.1 q.2 i j)
    {ψ : (ℕ → X) → ℝ≥0∞} (hψ : Measurable ψ) : Measurable fun H : ℕ → Hist X N => selExp κ H t ψ := by
  have h0 : Measurable fun H : ℕ → Hist X N => (H t).1 := measurable_fst.comp (measurable_pi_apply t)
  refine Finset.measurable_sum _ fun i _ => ?_
  have h2 : Measurable fun H : ℕ → Hist X N => ENNReal.ofReal (nw (H t).1.2.1 i) :=
    ENNReal.measurable_ofReal.comp ((measurable_nw i).comp (measurable_fst.comp (measurable_snd.comp h0)))
  exact h2.mul (measurable_invExp hκ measurable_id t i (fun _ => ψ) le_rfl (hψ.comp measurable_snd))

theorem fkExp_sum {ι : Type} [Fintype ι] [IsProbabilityMeasure P] {u0 : Inp} {us : List Inp} (hu : ∀ u ∈ us, mdl.Regular u)
    {g : ι → (ℕ → X) → ℝ≥0∞} (hg : ∀ i, Measurable (g i)) (c : ℝ≥0∞) :
    fkExp (mdl.init P u0) (us.map (mdl.step P)) (fun x => ∑ i, c * g i x) =
      ∑ i, c * fkExp (mdl.init P u0) (us.map (mdl.step P)) (g i) := by
  let _ : MeasurableSpace ι := ⊤
  have h1 : Measurable fun q : ι × (ℕ → X) => c * g q.1 q.2 :=
    (measurable_from_prod_countable_right hg).const_mul c
  have h2 : ∀ x, ∑ i, c * g i x = ∫⁻ i, c * g i x ∂Measure.count := fun x => by
    rw [lintegral_count, tsum_fintype]
  have hm : Measurable fun x => ∑ i, c * g i x := Finset.measurable_sum _ fun i _ => (hg i).const_mul c
  rw [← lintegral_pathCont us hu hm]
  simp only [h2]
  have h3 := fun p => pathCont_lintegral (P := P) (mdl := mdl) (ν := Measure.count) (ψ := fun i x => c * g i x) h1 us 0 p hu
  simp only [h3]
  simp only [lintegral_count, tsum_fintype]
  have hp : ∀ i, Measurable fun x : X => pathCont P mdl us 0 (fun x => c * g i x) fun _ => x := fun i =>
    (measurable_pathCont ((hg i).const_mul c) us 0 hu).comp (measurable_pi_iff.mpr fun _ => measurable_id)
  rw [lintegral_finsetSum' _ fun i _ => (hp i).aemeasurable]
  refine Finset.sum_congr rfl fun i _ => ?_
  have h4 : ∀ p, pathCont P mdl us 0 (fun x => c * g i x) p = c * pathCont P mdl us 0 (g i) p := by
    intro p
    have h5 := pathCont_lintegral (P := P) (mdl := mdl) (ν := c • Measure.dirac ()) (ψ := fun (_ : Unit) x => g i x)
      ((hg i).comp measurable_snd) us 0 p hu
    simpa [mul_comm] using h5
  have hp' : Measurable fun x : X => pathCont P mdl us 0 (g i) fun _ => x :=
    (measurable_pathCont (hg i) us 0 hu).comp (measurable_pi_iff.mpr fun _ => measurable_id)
  simp only [h4]
  rw [lintegral_const_mul _ hp', lintegral_pathCont us hu (hg i)]

/-- Running the conditional filter around a path and selecting a path leaves the Feynman-Kac measure invariant. -/
theorem fkExp_sweep [IsProbabilityMeasure P] [NeZero N] (hC : ConditionalLaw P C) (hI : MarginalOf P C I)
    (hIm : Measurable fun q : K × (Fin N → Fl) => I q.1 q.2) {u0 : Inp} (h0 : Measurable fun k => mdl.initSample k u0)
    (us : List Inp) (hu : ∀ u ∈ us, mdl.Regular u) (hf : ∀ u ∈ us, ∀ x x', (mdl.logPotential x x' u).IsFin)
    {κ : ℕ → Core X N → X → Fin N → Fin N → ℝ≥0∞}
    (hκ : ∀ s < us.length, ∀ i j, Measurable fun q : Core X N × X => κ s q.1 q.2 i j)
    (hs : ∀ s (hs : s < us.length), StepExact P mdl I κ s us[s]) {ψ : (ℕ → X) → ℝ≥0∞} (hψ : Measurable ψ) :
    fkExp (mdl.init P u0) (us.map (mdl.step P)) (fun x => ∑ b : Fin (us.length + 1) → Fin N,
      ((N : ℝ≥0∞)⁻¹) ^ (us.length + 1) * condTotal P mdl C u0 us (fun H => selExp κ H us.length ψ) b x) =
      fkExp (mdl.init P u0) (us.map (mdl.step P)) ψ := by
  have hΦ := measurable_selExp hκ hψ
  rw [fkExp_sum hu (fun b => measurable_condTotal hC h0 hΦ us b hu), ← lintegral_freeExp hC hI hIm h0 hΦ us hu hf,
    ← lintegral_pathCont us hu hψ]
  have h1 : ∀ a : Fin N → K, freeExp P mdl I (fun H => ENNReal.ofReal (H us.length).1.2.2.lik * selExp κ H us.length ψ) us 0
      (initHist fun i => mdl.initSample (a i) u0) =
      est (fun x => pathCont P mdl us 0 ψ fun _ => x) (coreInit mdl u0 a : Core X N) := by
    intro a
    have hA : Alive ((initHist fun i => mdl.initSample (a i) u0) 0).1 := ⟨isLogits_zero, trivial⟩
    exact freeExp_invEst hψ us 0 _ us.length (by omega) hu hf (fun s h' => by simpa using hs s h') hA
  have h2 : Measurable fun x : X => pathCont P mdl us 0 ψ fun _ => x :=
    (measurable_pathCont hψ us 0 hu).comp (measurable_pi_iff.mpr fun _ => measurable_id)
  rw [lintegral_congr h1, lintegral_coreInit h0 h2]

end sweep

/-! ### The program -/

/-- The state after a step of the conditional filter. -/
def condTo (rng : Prng K) (mdl : FKModel K X Inp) (C : K → (Fin N → Fl) → Fin N → Fin N → Fin N → Fin N) (u : Inp) (k : K)
    (s : PFState K X Inp N) (x' : X) (b' b : Fin N) : PFState K X Inp N :=
  let H := cstepH mdl C u (rng.nth k (N + 1)) x' b' b s.core
  ⟨k, H.1.1, H.1.2.1, H.2, u, H.1.2.2⟩

/-- The state `s` steps later when the conditional filter continues from `st` at time `t`. -/
def condAt (rng : Prng K) (mdl : FKModel K X Inp) (C : K → (Fin N → Fl) → Fin N → Fin N → Fin N → Fin N) (x : ℕ → X) :
    (us : List Inp) → ℕ → (Fin (us.length + 1) → Fin N) → (Fin us.length → K) → PFState K X Inp N → ℕ →
      PFState K X Inp N
  | [], _, _, _, st, _ => st
  | _ :: _, _, _, _, st, 0 => st
  | u :: us, t, b, keys, st, s + 1 => condAt rng mdl C x us (t + 1) (Fin.tail b) (Fin.tail keys)
      (condTo rng mdl C u (keys 0) st (x (t + 1)) (b 1) (b 0)) s

/-- All cores and ancestors of a run of the conditional filter that continues from `H` at time `t`. -/
def condHist (rng : Prng K) (mdl : FKModel K X Inp) (C : K → (Fin N → Fl) → Fin N → Fin N → Fin N → Fin N) (x : ℕ → X) :
    (us : List Inp) → ℕ → (Fin (us.length + 1) → Fin N) → (Fin us.length → K) → (ℕ → Hist X N) → ℕ → Hist X N
  | [], _, _, _, H => H
  | u :: us, t, b, keys, H => condHist rng mdl C x us (t + 1) (Fin.tail b) (Fin.tail keys)
      (Function.update H (t + 1) (cstepH mdl C u (rng.nth (keys 0) (N + 1)) (x (t + 1)) (b 1) (b 0) (H t).1))

section program

variable {rng : Prng K} {mdl : FKModel K X Inp} {C : K → (Fin N → Fl) → Fin N → Fin N → Fin N → Fin N}
  {Cr : CondResampler K N X}

theorem conditionalStep_eq (hC : CondUses Cr C) (u : Inp) (k : K) (s : PFState K X Inp N) (x' : X) (b' b : Fin N) :
    conditionalStep rng mdl Cr u k s x' b' b = .ok (condTo rng mdl C u k s x' b' b) := by
  unfold conditionalStep
  simp only [hC (rng.nth k (N + 1) 0) s.logWeights s.particles b' b]
  rfl

theorem condAt_zero (x : ℕ → X) : ∀ (us : List Inp) (t : ℕ) (b : Fin (us.length + 1) → Fin N) (keys : Fin us.length → K)
    (st : PFState K X Inp N), condAt rng mdl C x us t b keys st 0 = st
  | [], _, _, _, _ => rfl
  | _ :: _, _, _, _, _ => rfl

theorem conditionalSteps_eq (hC : CondUses Cr C) (x : ℕ → X) : ∀ (us : List Inp) (t : ℕ)
    (b : Fin (us.length + 1) → Fin N) (keys : Fin us.length → K) (st : PFState K X Inp N),
    conditionalSteps rng mdl Cr x us t b keys st =
      .ok ((List.range (us.length + 1)).map (condAt rng mdl C x us t b keys st))
  | [], _, _, _, _ => rfl
  | u :: us, t, b, keys, st => by
    rw [conditionalSteps, conditionalStep_eq hC]
    change (do
      let ss ← conditionalSteps rng mdl Cr x us (t + 1) (Fin.tail b) (Fin.tail keys)
        (condTo rng mdl C u (keys 0) st (x (t + 1)) (b 1) (b 0))
      return st :: ss) = _
    rw [conditionalSteps_eq hC x us (t + 1) (Fin.tail b) (Fin.tail keys)]
    have h1 : (List.range (us.length + 1 + 1)).map (condAt rng mdl C x (u :: us) t b keys st) =
        st :: (List.range (us.length + 1)).map (condAt rng mdl C x us (t + 1) (Fin.tail b) (Fin.tail keys)
          (condTo rng mdl C u (keys 0) st (x (t + 1)) (b 1) (b 0))) := by
      rw [List.range_succ_eq_map, List.map_cons, List.map_map]
      rfl
    exact (congrArg Except.ok h1).symm

theorem condHist_low (x : ℕ → X) : ∀ (us : List Inp) (t : ℕ) (b : Fin (us.length + 1) → Fin N) (keys : Fin us.length → K)
    (H : ℕ → Hist X N) (s : ℕ), s ≤ t → condHist rng mdl C x us t b keys H s = H s
  | [], _, _, _, _, _, _ => rfl
  | u :: us, t, b, keys, H, s, hs => by
    rw [condHist, condHist_low x us (t + 1) _ _ _ s (by omega), Function.update_of_ne (by omega)]

theorem condHist_condAt (x : ℕ → X) : ∀ (us : List Inp) (t : ℕ) (b : Fin (us.length + 1) → Fin N) (keys : Fin us.length → K)
    (H : ℕ → Hist X N) (st : PFState K X Inp N) (s : ℕ), H t = st.hist → s ≤ us.length →
    condHist rng mdl C x us t b keys H (t + s) = (condAt rng mdl C x us t b keys st s).hist
  | [], t, b, keys, H, st, s, hH, hs => by
    have : s = 0 := by simpa using hs
    subst this
    exact hH
  | u :: us, t, b, keys, H, st, 0, hH, _ => by
    rw [condHist_low _ _ _ _ _ _ _ (by omega), add_zero, hH]
    rfl
  | u :: us, t, b, keys, H, st, s + 1, hH, hs => by
    rw [condHist, condAt, show t + (s + 1) = t + 1 + s by omega]
    refine condHist_condAt x us (t + 1) _ _ _ (condTo rng mdl C u (keys 0) st (x (t + 1)) (b 1) (b 0)) s ?_
      (by simpa using hs)
    rw [Function.update_self, hH]
    rfl

theorem condHist_alive [NeZero N] (x : ℕ → X) : ∀ (us : List Inp) (t : ℕ) (b : Fin (us.length + 1) → Fin N)
    (keys : Fin us.length → K) (H : ℕ → Hist X N), (∀ u ∈ us, ∀ x x', (mdl.logPotential x x' u).IsFin) → Alive (H t).1 →
    ∀ s ≤ us.length, Alive (condHist rng mdl C x us t b keys H (t + s)).1
  | [], t, b, keys, H, _, hH, s, hs => by
    have : s = 0 := by simpa using hs
    subst this
    exact hH
  | u :: us, t, b, keys, H, hf, hH, 0, _ => by
    rw [condHist_low _ _ _ _ _ _ _ (by omega)]
    exact hH
  | u :: us, t, b, keys, H, hf, hH, s + 1, hs => by
    rw [condHist, show t + (s + 1) = t + 1 + s by omega]
    refine condHist_alive x us (t + 1) _ _ _ (fun u' h' => hf u' (by simp [h'])) ?_ s (by simpa using hs)
    rw [Function.update_self]
    exact hH.histFrom (hf u (by simp)) _ _

end program

section program

variable [MeasurableSpace K] [MeasurableSpace X] {P : Measure K} {rng : Rng K} {mdl : FKModel K X Inp}
  {C : K → (Fin N → Fl) → Fin N → Fin N → Fin N → Fin N}

theorem measurable_condHist (h : IdealRng rng P) (hC : ConditionalLaw P C) (x : ℕ → X) : ∀ (us : List Inp) (t : ℕ)
    (b : Fin (us.length + 1) → Fin N), (∀ u ∈ us, mdl.Regular u) →
    Measurable fun q : (Fin us.length → K) × (ℕ → Hist X N) => condHist rng.toPrng mdl C x us t b q.1 q.2
  | [], _, _, _ => measurable_snd
  | u :: us, t, b, hu => by
    have ih := measurable_condHist h hC x us (t + 1) (Fin.tail b) fun u' h' => hu u' (by simp [h'])
    have h1 : Measurable fun q : (Fin (us.length + 1) → K) × (ℕ → Hist X N) => rng.nth (q.1 0) (N + 1) :=
      (measurable_nthAll h (N + 1)).comp ((measurable_pi_apply 0).comp measurable_fst)
    have h2 : Measurable fun q : (Fin (us.length + 1) → K) × (ℕ → Hist X N) => (q.2 t).1 :=
      measurable_fst.comp ((measurable_pi_apply t).comp measurable_snd)
    have h3 := measurable_cstepH (hu u (by simp)) hC (b 1) (b 0) h1 (measurable_const (a := x (t + 1))) h2
    have h4 := measurable_update (t + 1) (measurable_snd (α := Fin (us.length + 1) → K) (β := ℕ → Hist X N)) h3
    have h5 : Measurable fun q : (Fin (us.length + 1) → K) × (ℕ → Hist X N) => Fin.tail q.1 :=
      measurable_pi_iff.mpr fun i => (measurable_pi_apply i.succ).comp measurable_fst
    exact ih.comp (h5.prodMk h4)

theorem lintegral_condHist (h : IdealRng rng P) (hC : ConditionalLaw P C) (x : ℕ → X) {Φ : (ℕ → Hist X N) → ℝ≥0∞}
    (hΦ : Measurable Φ) : ∀ (us : List Inp) (t : ℕ) (b : Fin (us.length + 1) → Fin N) (H : ℕ → Hist X N),
    (∀ u ∈ us, mdl.Regular u) →
    ∫⁻ keys, Φ (condHist rng.toPrng mdl C x us t b keys H) ∂(Measure.pi fun _ => P) = condExp P mdl C Φ us t b H x
  | [], t, b, H, _ => by
    have := h.prob
    simp [condHist, condExp]
  | u :: us, t, b, H, hu => by
    have := h.prob
    have hur := hu u (by simp)
    have hu' : ∀ u' ∈ us, mdl.Regular u' := fun u' h' => hu u' (by simp [h'])
    have h1 : Measurable fun keys : Fin (us.length + 1) → K => Φ (condHist rng.toPrng mdl C x (u :: us) t b keys H) := by
      have h2 : Measurable fun keys : Fin (us.length + 1) → K => (keys, H) := measurable_id.prodMk measurable_const
      exact hΦ.comp ((measurable_condHist h hC x (u :: us) t b hu).comp h2)
    refine (lintegral_pi_cons P h1).trans ?_
    simp only [condHist, condExp, Fin.cons_zero, Fin.tail_cons]
    have h2 := fun H => lintegral_condHist h hC x hΦ us (t + 1) (Fin.tail b) H hu'
    simp only [h2]
    have h3 : Measurable fun ks : Fin (N + 1) → K => condExp P mdl C Φ us (t + 1) (Fin.tail b)
        (Function.update H (t + 1) (cstepH mdl C u ks (x (t + 1)) (b 1) (b 0) (H t).1)) x := by
      have h4 := measurable_cstepH hur hC (b 1) (b 0) (measurable_id (α := Fin (N + 1) → K))
        (measurable_const (a := x (t + 1))) (measurable_const (a := (H t).1))
      have h5 : Measurable fun ks : Fin (N + 1) → K =>
          (Function.update H (t + 1) (cstepH mdl C u ks (x (t + 1)) (b 1) (b 0) (H t).1), x) :=
        (measurable_update (t + 1) measurable_const h4).prodMk measurable_const
      exact (measurable_condExp hC hΦ us (t + 1) (Fin.tail b) hu').comp h5
    exact (h.split (N + 1)).lintegral_comp h3

end program

end

end Cuthbert.SMC
