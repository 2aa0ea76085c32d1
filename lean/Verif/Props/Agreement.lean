import Mathlib.Probability.Kernel.Representation
import Verif.Lemmas.Agreement
import Verif.Props.Consistency
import Verif.Props.Discrete
import Verif.Props.KalmanSmoother

/-!
# The particle filter agrees with the discrete and the Kalman filter (C78)
-/

namespace Cuthbert.SMC
open MeasureTheory Matrix Set Filter Spec Resampling
open scoped ENNReal Topology

noncomputable section

variable {K X Inp Inp' K' : Type} {n N : ℕ}

/-! ## Hidden Markov models -/

section hmm

variable [MeasurableSpace K] {P : Measure K} {rng : Rng K} {mdl : FKModel K (Fin (n + 1)) Inp}
  {M : HMM (Fin (n + 1))} {u0 : Inp} {us : List Inp}

theorem SimulatesHMM.take {X : Type} {mdl : FKModel K X Inp} {M : HMM X} (hM : SimulatesHMM P mdl M u0 us) (t : ℕ) :
    SimulatesHMM P mdl M u0 (us.take t) where
  init := hM.init
  trans s u hs := hM.trans s u (by
    rw [List.getElem?_take] at hs
    split_ifs at hs
    exact hs)
  lik s u hs := hM.lik s u (by
    rw [List.getElem?_take] at hs
    split_ifs at hs
    exact hs)

theorem joint_nonneg (hM : SimulatesHMM P mdl M u0 us) (hV : Discrete.Valid M) (t : ℕ) (ht : t ≤ us.length)
    (x : Fin (t + 1) → Fin (n + 1)) : 0 ≤ M.joint t x := by
  refine mul_nonneg (hV.init_nonneg _) (Finset.prod_nonneg fun s _ => mul_nonneg (hV.trans_nonneg _ _ _) ?_)
  rw [← hM.lik s _ (List.getElem?_eq_getElem (by omega)) 0 _]
  exact Fl.lik_nonneg _

/-- Unnormalised smoothing distributions as Feynman-Kac expectations. -/
theorem fkExp_smoothJoint (hM : SimulatesHMM P mdl M u0 us) (hV : Discrete.Valid M)
    (h0 : Measurable fun k => mdl.initSample k u0) (hu : ∀ u ∈ us, mdl.Regular u) (t : ℕ) (ht : t ≤ us.length)
    (s : ℕ) (hs : s < t + 1) (j : Fin (n + 1)) :
    fkExp (mdl.init P u0) ((us.take t).map (mdl.step P)) (fun p => if p s = j then 1 else 0) =
      ENNReal.ofReal (M.smoothJoint t ⟨s, hs⟩ j) := by
  have hl : (us.take t).length = t := by simpa using ht
  rw [fkExp_eq_sum (hM.take t) hV.init_nonneg hV.trans_nonneg h0 fun u hu' => hu u (List.mem_of_mem_take hu')]
  have h1 : ∀ T (hT : T = t), ∑ x : Fin (T + 1) → Fin (n + 1), ENNReal.ofReal (M.joint T x) *
      (if extend x s = j then 1 else 0) = ENNReal.ofReal (M.smoothJoint t ⟨s, hs⟩ j) := by
    intro T hT
    subst hT
    rw [HMM.smoothJoint, ENNReal.ofReal_sum_of_nonneg]
    · refine Finset.sum_congr rfl fun x _ => ?_
      have h2 : extend x s = x ⟨s, hs⟩ := by
        simp only [extend]
        congr 1
        ext
        simp only
        omega
      rw [h2]
      split_ifs <;> simp
    · intro x _
      split_ifs
      · exact joint_nonneg hM hV T ht x
      · exact le_rfl
  exact h1 _ hl

/-- The evidence as a Feynman-Kac expectation. -/
theorem fkExp_evidence (hM : SimulatesHMM P mdl M u0 us) (hV : Discrete.Valid M)
    (h0 : Measurable fun k => mdl.initSample k u0) (hu : ∀ u ∈ us, mdl.Regular u) (t : ℕ) (ht : t ≤ us.length) :
    fkExp (mdl.init P u0) ((us.take t).map (mdl.step P)) (fun _ => 1) = ENNReal.ofReal (M.evidence t) := by
  have hl : (us.take t).length = t := by simpa using ht
  rw [fkExp_eq_sum (hM.take t) hV.init_nonneg hV.trans_nonneg h0 fun u hu' => hu u (List.mem_of_mem_take hu')]
  have h1 : ∀ T (hT : T = t), ∑ x : Fin (T + 1) → Fin (n + 1), ENNReal.ofReal (M.joint T x) * 1 =
      ENNReal.ofReal (M.evidence t) := by
    intro T hT
    subst hT
    rw [HMM.evidence, ENNReal.ofReal_sum_of_nonneg fun x _ => joint_nonneg hM hV T ht x]
    simp
  exact h1 _ hl

theorem fkMean_smoothLaw (hM : SimulatesHMM P mdl M u0 us) (hV : Discrete.Valid M)
    (h0 : Measurable fun k => mdl.initSample k u0) (hu : ∀ u ∈ us, mdl.Regular u) (t : ℕ) (ht : t ≤ us.length)
    (s : ℕ) (hs : s < t + 1) (j : Fin (n + 1)) :
    fkMean (mdl.init P u0) ((us.take t).map (mdl.step P)) (fun p => if p s = j then 1 else 0) =
      M.smoothLaw t ⟨s, hs⟩ j := by
  have h1 : (fun p : ℕ → Fin (n + 1) => ENNReal.ofReal (if p s = j then 1 else 0)) =
      fun p => if p s = j then 1 else 0 := by
    funext p
    split_ifs <;> simp
  have h2 : (fun p : ℕ → Fin (n + 1) => ENNReal.ofReal (-if p s = j then 1 else 0)) = fun _ => 0 := by
    funext p
    split_ifs <;> simp
  have h3 : fkExp (mdl.init P u0) ((us.take t).map (mdl.step P)) (fun _ => 0) = 0 := by
    have hl : (us.take t).length = t := by simpa using ht
    rw [fkExp_eq_sum (hM.take t) hV.init_nonneg hV.trans_nonneg h0 fun u hu' => hu u (List.mem_of_mem_take hu')]
    simp
  rw [fkMean, h1, h2, h3, fkExp_smoothJoint hM hV h0 hu t ht s hs j, fkExp_evidence hM hV h0 hu t ht,
    ENNReal.toReal_ofReal, ENNReal.toReal_ofReal, ENNReal.toReal_zero, sub_zero, HMM.smoothLaw]
  · exact Finset.sum_nonneg fun x _ => joint_nonneg hM hV t ht x
  · refine Finset.sum_nonneg fun x _ => ?_
    split_ifs
    · exact joint_nonneg hM hV t ht x
    · exact le_rfl

omit [MeasurableSpace K] in
/-- The average of a function of the last state of the path only involves the particles and weights. -/
theorem average_last (S : ℕ → PFState K X Inp N) (t : ℕ) (φ : X → ℝ) : average S t (fun p => φ (p t)) =
    ∑ i, nw (S t).logWeights i * φ ((S t).particles i) := by
  simp only [average, ancestralPath_self]

/-- The potentials of a finite model are bounded. -/
theorem SimulatesHMM.bounded (hM : SimulatesHMM P mdl M u0 us) :
    ∃ B : ℝ, ∀ u ∈ us, ∀ x x', (mdl.logPotential x x' u).lik ≤ B := by
  refine ⟨∑ t ∈ Finset.range us.length, ∑ j, |M.lik t j|, fun u hu x x' => ?_⟩
  obtain ⟨t, ht, rfl⟩ := List.mem_iff_getElem.mp hu
  rw [hM.lik t _ (List.getElem?_eq_getElem ht)]
  calc M.lik t x' ≤ |M.lik t x'| := le_abs_self _
    _ ≤ ∑ j, |M.lik t j| := Finset.single_le_sum (f := fun j => |M.lik t j|) (fun j _ => abs_nonneg _)
      (Finset.mem_univ x')
    _ ≤ _ := Finset.single_le_sum (f := fun t => ∑ j, |M.lik t j|)
      (fun t _ => Finset.sum_nonneg fun j _ => abs_nonneg _) (Finset.mem_range.mpr ht)

theorem filterJoint_eq_smoothJoint (t : ℕ) (j : Fin (n + 1)) : M.filterJoint t j = M.smoothJoint t ⟨t, by omega⟩ j :=
  rfl

variable {getInit : Inp' → Fin (n + 1) → Fl} {getTrans : Inp' → Fin (n + 1) → Fin (n + 1) → Fl}
  {getObs : Inp' → Fin (n + 1) → Fl} {inputs : List Inp'}

/-- C78, hidden Markov models. Give the discrete filter the probabilities and the particle filter callbacks that
simulate the same model. Then, as the number of particles grows, for every time the weighted frequencies of the
states among the particles converge in probability to the distribution that the discrete filter returns, and so
does `log_normalizing_constant`. For both kinds of generator. -/
theorem particle_filter_agrees_discrete (h : IdealRng rng P) (hI : IndepSplit rng.toPrng P ∨ PrefixSplit rng.toPrng)
    (pf : Platform) (hM : SimulatesHMM P mdl M u0 us) (hV : Discrete.Valid M)
    (h0 : Measurable fun k => mdl.initSample k u0) (hu : ∀ u ∈ us, mdl.Regular u)
    (hrep : Discrete.Represents M getInit getTrans getObs inputs) (hlen : inputs.length = us.length + 1)
    (hpos : Discrete.RowsPositive M us.length) {R : ∀ N : ℕ, Resampler K (N + 1) (Fin (n + 1))}
    (hR : (R = fun _ => multinomial rng pf) ∨ R = fun _ => killing rng pf) (dummy : Fin (n + 1))
    (rng' : Prng K') (parallel : Bool) (key' : Option K') :
    ∃ (S : ∀ N : ℕ, K → ℕ → PFState K (Fin (n + 1)) Inp (N + 1)) (states : List (Discrete.FilterState n Inp')),
      (∀ N k, filter rng.toPrng (particleFilter rng.toPrng mdl dummy (N + 1) (R N)) (u0 :: us) false (some k) =
        ⟨false, .ok ((List.range (us.length + 1)).map fun t => .ok (S N k t))⟩) ∧
      (filter rng' (Discrete.buildFilter getInit getTrans getObs) inputs parallel key').result = .ok states ∧
      states.length = us.length + 1 ∧
      ∀ t s, states[t]? = some s → ∃ (d : Fin (n + 1) → ℝ) (l : ℝ), (∀ j, s.dist j = Fl.fin (d j)) ∧
        s.logNormalizingConstant = Fl.fin l ∧ ∀ ε : ℝ, 0 < ε →
        Tendsto (fun N => P {k | ¬ ∃ l' : ℝ, (S N k t).logZ = Fl.fin l' ∧ |l' - l| < ε}) atTop (𝓝 0) ∧
        ∀ j, Tendsto (fun N => P {k | ε ≤ |∑ i, nw (S N k t).logWeights i *
          (if (S N k t).particles i = j then 1 else 0) - d j|}) atTop (𝓝 0) := by
  obtain ⟨B, hB⟩ := hM.bounded
  obtain ⟨c1, c2, -⟩ := particle_filter_consistent h hI pf h0 hu hB dummy
  have hC : ConsistentRuns rng P mdl R dummy u0 us := by
    rcases hR with rfl | rfl
    · exact c1
    · exact c2
  obtain ⟨S, hS, hc⟩ := hC
  obtain ⟨states, hst, hl, hall⟩ := Discrete.discrete_filter_exact (K := K') hrep hV (by
    intro h
    rw [h] at hlen
    simp at hlen) (by rw [hlen]; exact hpos) rng' key' parallel
  refine ⟨S, states, hS, hst, hl.trans hlen, fun t s hs => ?_⟩
  have ht : t ≤ us.length := by
    have := (List.getElem?_eq_some_iff.mp hs).1
    omega
  obtain ⟨h1, h2, h3, -⟩ := hall t s hs
  refine ⟨fun j => M.filterLaw t j, Real.log (M.evidence t), h1, h3, fun ε hε => ?_⟩
  have hz : M.evidence t = (fkExp (mdl.init P u0) ((us.take t).map (mdl.step P)) fun _ => 1).toReal := by
    rw [fkExp_evidence hM hV h0 hu t ht, ENNReal.toReal_ofReal h2.le]
  obtain ⟨h4, h5⟩ := hc t ht _ hz h2 ε hε
  refine ⟨h4, fun j => ?_⟩
  have h6 := h5 (fun p => if p t = j then 1 else 0) 1
    ((measurable_of_finite fun x : Fin (n + 1) => if x = j then (1 : ℝ) else 0).comp (measurable_pi_apply t))
    fun p => by split_ifs <;> simp
  rw [fkMean_smoothLaw hM hV h0 hu t ht t (by omega) j] at h6
  have h7 : ∀ N k, average (S N k) t (fun p => if p t = j then (1 : ℝ) else 0) =
      ∑ i, nw (S N k t).logWeights i * (if (S N k t).particles i = j then 1 else 0) := fun N k =>
    average_last (S N k) t fun x => if x = j then 1 else 0
  simp only [h7] at h6
  exact h6

/-- C78, hidden Markov models, smoothing: the weighted frequencies of the states among the ancestors at time `t` of
the final particles converge in probability to the distribution that the discrete smoother returns for `t`. -/
theorem ancestors_agree_discrete_smoother (h : IdealRng rng P)
    (hI : IndepSplit rng.toPrng P ∨ PrefixSplit rng.toPrng)
    (pf : Platform) (hM : SimulatesHMM P mdl M u0 us) (hV : Discrete.Valid M)
    (h0 : Measurable fun k => mdl.initSample k u0) (hu : ∀ u ∈ us, mdl.Regular u)
    (hrep : Discrete.Represents M getInit getTrans getObs inputs) (hlen : inputs.length = us.length + 1)
    (hus : us ≠ []) (hpos : Discrete.RowsPositive M us.length) (hreach : Discrete.AllReachable M us.length)
    {R : ∀ N : ℕ, Resampler K (N + 1) (Fin (n + 1))}
    (hR : (R = fun _ => multinomial rng pf) ∨ R = fun _ => killing rng pf) (dummy : Fin (n + 1))
    (rng' rng'' : Prng K') (parallel parallel' : Bool) (key' key'' : Option K') (dummyInp : Inp' → Inp')
    (filterStates : List (Discrete.FilterState n Inp'))
    (hf : (filter rng' (Discrete.buildFilter getInit getTrans getObs) inputs parallel key').result =
      .ok filterStates) :
    ∃ (S : ∀ N : ℕ, K → ℕ → PFState K (Fin (n + 1)) Inp (N + 1)) (states : List (Discrete.SmootherState n Inp')),
      (∀ N k, filter rng.toPrng (particleFilter rng.toPrng mdl dummy (N + 1) (R N)) (u0 :: us) false (some k) =
        ⟨false, .ok ((List.range (us.length + 1)).map fun t => .ok (S N k t))⟩) ∧
      (smoother rng'' Discrete.FilterState.modelInputs (fun u => .ok (dummyInp u))
        (Discrete.buildSmoother dummyInp getTrans) filterStates none parallel' key'').result = .ok states ∧
      states.length = us.length + 1 ∧
      ∀ t s, states[t]? = some s → ∃ d : Fin (n + 1) → ℝ, (∀ j, s.dist j = Fl.fin (d j)) ∧ ∀ ε : ℝ, 0 < ε →
        ∀ j, Tendsto (fun N => P {k | ε ≤ |average (S N k) us.length (fun p => if p t = j then 1 else 0) - d j|})
          atTop (𝓝 0) := by
  obtain ⟨B, hB⟩ := hM.bounded
  obtain ⟨c1, c2, -⟩ := particle_filter_consistent h hI pf h0 hu hB dummy
  have hC : ConsistentRuns rng P mdl R dummy u0 us := by
    rcases hR with rfl | rfl
    · exact c1
    · exact c2
  obtain ⟨S, hS, hc⟩ := hC
  have hne : inputs ≠ [] := by
    intro h
    rw [h] at hlen
    simp at hlen
  obtain ⟨fs, hfs, hl, hall⟩ := Discrete.discrete_filter_exact (K := K') hrep hV hne
    (by rw [hlen]; exact hpos) rng' key' parallel
  rw [hf, Except.ok.injEq] at hfs
  subst hfs
  obtain ⟨states, hst, hl2, hall2⟩ := Discrete.discrete_smoother_exact (K := K') hrep hV us.length hlen
    (List.length_pos_iff.mpr hus) hpos hreach rng' rng'' key' key'' parallel parallel' dummyInp filterStates hf
  refine ⟨S, states, hS, hst, hl2, fun t s hs => ?_⟩
  have ht : t < us.length + 1 := by
    have := (List.getElem?_eq_some_iff.mp hs).1
    omega
  obtain ⟨h1, -, -⟩ := hall2 t ht s hs
  refine ⟨_, h1, fun ε hε j => ?_⟩
  have h2 : 0 < M.evidence us.length :=
    (hall us.length _ (List.getElem?_eq_getElem (by omega))).2.1
  have hz : M.evidence us.length =
      (fkExp (mdl.init P u0) ((us.take us.length).map (mdl.step P)) fun _ => 1).toReal := by
    rw [fkExp_evidence hM hV h0 hu us.length le_rfl, ENNReal.toReal_ofReal h2.le]
  obtain ⟨-, h5⟩ := hc us.length le_rfl _ hz h2 ε hε
  have h6 := h5 (fun p => if p t = j then 1 else 0) 1
    ((measurable_of_finite fun x : Fin (n + 1) => if x = j then (1 : ℝ) else 0).comp (measurable_pi_apply t))
    fun p => by split_ifs <;> simp
  rw [fkMean_smoothLaw hM hV h0 hu us.length le_rfl t ht j] at h6
  exact h6

/-- C78, hidden Markov models, without a limit: for any number of particles, the expectation of
`exp(log_normalizing_constant)` of the particle filter is that of the discrete filter; with the weighted frequency
of a state as a further factor it is the filter's probability of that state times that. (Systematic and killing
resampling; multinomial resampling if splits are independent, see C53.) -/
theorem particle_filter_mean_discrete [NeZero N] (h : IdealRng rng P)
    (pf : Platform) (hM : SimulatesHMM P mdl M u0 us) (hV : Discrete.Valid M)
    (h0 : Measurable fun k => mdl.initSample k u0) (hu : ∀ u ∈ us, mdl.Regular u)
    (hrep : Discrete.Represents M getInit getTrans getObs inputs) (hlen : inputs.length = us.length + 1)
    (hpos : Discrete.RowsPositive M us.length) {R : Resampler K N (Fin (n + 1))}
    (hR : (IndepSplit rng.toPrng P ∨ PrefixSplit rng.toPrng) ∧ (R = systematic rng pf ∨ R = killing rng pf) ∨
      IndepSplit rng.toPrng P ∧ R = multinomial rng pf) (dummy : Fin (n + 1))
    (rng' : Prng K') (parallel : Bool) (key' : Option K') :
    ∃ (S : K → ℕ → PFState K (Fin (n + 1)) Inp N) (states : List (Discrete.FilterState n Inp')),
      (∀ k, filter rng.toPrng (particleFilter rng.toPrng mdl dummy N R) (u0 :: us) false (some k) =
        ⟨false, .ok ((List.range (us.length + 1)).map fun t => .ok (S k t))⟩) ∧
      (filter rng' (Discrete.buildFilter getInit getTrans getObs) inputs parallel key').result = .ok states ∧
      states.length = us.length + 1 ∧
      ∀ t s, states[t]? = some s → ∃ (d : Fin (n + 1) → ℝ) (l : ℝ), (∀ j, s.dist j = Fl.fin (d j)) ∧
        s.logNormalizingConstant = Fl.fin l ∧
        ∫⁻ k, ENNReal.ofReal (S k t).logZ.lik ∂P = ENNReal.ofReal (Real.exp l) ∧
        ∀ j, ∫⁻ k, ENNReal.ofReal (S k t).logZ.lik * ∑ i, ENNReal.ofReal (nw (S k t).logWeights i) *
          (if (S k t).particles i = j then 1 else 0) ∂P = ENNReal.ofReal (Real.exp l * d j) := by
  have hU : UnbiasedRun rng P mdl R dummy u0 us := by
    rcases hR with ⟨hI, rfl | rfl⟩ | ⟨hI, rfl⟩
    · exact systematic_filter_unbiased h hI pf h0 us hu dummy
    · exact killing_filter_unbiased h hI pf h0 us hu dummy
    · exact multinomial_filter_unbiased_partial h hI pf h0 us hu dummy
  obtain ⟨S, hS, hg, hc⟩ := hU
  obtain ⟨states, hst, hl, hall⟩ := Discrete.discrete_filter_exact (K := K') hrep hV (by
    intro h
    rw [h] at hlen
    simp at hlen) (by rw [hlen]; exact hpos) rng' key' parallel
  refine ⟨S, states, hS, hst, hl.trans hlen, fun t s hs => ?_⟩
  have ht : t ≤ us.length := by
    have := (List.getElem?_eq_some_iff.mp hs).1
    omega
  obtain ⟨h1, h2, h3, -⟩ := hall t s hs
  refine ⟨fun j => M.filterLaw t j, Real.log (M.evidence t), h1, h3, ?_, fun j => ?_⟩
  · rw [Real.exp_log h2, ← fkExp_evidence hM hV h0 hu t ht, ← (hc t ht _ measurable_const).2]
    refine lintegral_congr fun k => ?_
    rw [pathEst]
    rcases (hg k t ht).2.2 with h4 | h4
    · simp only [mul_one]
      rw [← ENNReal.ofReal_sum_of_nonneg fun i _ => nw_nonneg _ i, nw_sum h4, ENNReal.ofReal_one, mul_one]
    · rw [h4]
      simp [Fl.lik]
  · have h4 : Real.exp (Real.log (M.evidence t)) * M.filterLaw t j = M.smoothJoint t ⟨t, by omega⟩ j := by
      rw [Real.exp_log h2, HMM.filterLaw, mul_div_cancel₀ _ h2.ne']
      rfl
    have hm : Measurable fun p : ℕ → Fin (n + 1) => if p t = j then (1 : ℝ≥0∞) else 0 :=
      (measurable_of_finite fun x : Fin (n + 1) => if x = j then (1 : ℝ≥0∞) else 0).comp (measurable_pi_apply t)
    rw [h4, ← fkExp_smoothJoint hM hV h0 hu t ht t (by omega) j, ← (hc t ht _ hm).2]
    refine lintegral_congr fun k => ?_
    simp only [pathEst, ancestralPath_self]

/-- The hypotheses of C78 can be met for every hidden Markov model with non-negative likelihoods: draw with
`random.choice`. The inputs are the times. -/
theorem exists_simulatesHMM (h : IdealRng rng P) (M : HMM (Fin (n + 1))) (hV : Discrete.Valid M)
    (hl : ∀ t j, 0 ≤ M.lik t j) (T : ℕ) : ∃ mdl : FKModel K (Fin (n + 1)) ℕ,
      SimulatesHMM P mdl M 0 (List.range T) ∧ (Measurable fun k => mdl.initSample k 0) ∧ ∀ t, mdl.Regular t := by
  refine ⟨⟨fun k _ => rng.choice k (n + 1) fun j => Fl.fin (M.init j),
    fun k i t => rng.choice k (n + 1) fun j => Fl.fin (M.trans t i j),
    fun _ j t => if M.lik t j = 0 then Fl.ninf else Fl.fin (Real.log (M.lik t j))⟩, ⟨?_, ?_, ?_⟩, ?_, fun t => ⟨?_, ?_, ?_⟩⟩
  · exact h.choice (n + 1) M.init hV.init_nonneg hV.init_sum
  · intro t u hu i
    obtain ⟨-, rfl⟩ : t < T ∧ t = u := by
      rw [List.getElem?_eq_some_iff] at hu
      obtain ⟨h1, h2⟩ := hu
      simp only [List.length_range, List.getElem_range] at h1 h2
      exact ⟨h1, h2⟩
    exact h.choice (n + 1) (M.trans t i) (hV.trans_nonneg t i) (hV.trans_sum t i)
  · intro t u hu i j
    obtain ⟨-, rfl⟩ : t < T ∧ t = u := by
      rw [List.getElem?_eq_some_iff] at hu
      obtain ⟨h1, h2⟩ := hu
      simp only [List.length_range, List.getElem_range] at h1 h2
      exact ⟨h1, h2⟩
    dsimp only
    split_ifs with h1
    · simp [Fl.lik, h1]
    · simp only [Fl.lik]
      exact Real.exp_log (lt_of_le_of_ne (hl t j) (Ne.symm h1))
  · exact (h.choice_measurable (n + 1)).comp (measurable_id.prodMk measurable_const)
  · have h1 : Measurable fun i : Fin (n + 1) => fun j => Fl.fin (M.trans t i j) := measurable_of_finite _
    exact (h.choice_measurable (n + 1)).comp (measurable_fst.prodMk (h1.comp measurable_snd))
  · exact measurable_of_finite _
  · intro x x'
    dsimp only
    split_ifs <;> trivial

end hmm

/-- A sticky two-state model with an uninformative second observation. -/
def stickyModel : HMM (Fin 2) where
  init j := if j = 0 then 1 / 4 else 3 / 4
  trans _ i j := if i = j then 2 / 3 else 1 / 3
  lik t j := if t = 1 then 1 else if j = 0 then 1 / 2 else 2

example : ∃ (rng : Rng Key) (mdl : FKModel Key (Fin 2) ℕ), PrefixSplit rng.toPrng ∧
    SimulatesHMM keyLaw mdl stickyModel 0 (List.range 3) ∧ Discrete.Valid (n := 1) stickyModel ∧
    Discrete.RowsPositive (n := 1) stickyModel (List.range 3).length ∧
    Discrete.AllReachable (n := 1) stickyModel (List.range 3).length ∧
    Discrete.Represents (n := 1) stickyModel (fun _ : ℕ => fun j => Fl.fin (stickyModel.init j))
      (fun t i j => Fl.fin (stickyModel.trans (t - 1) i j)) (fun t j => Fl.fin (Real.log (stickyModel.lik (t - 1) j)))
      (List.range 4) := by
  obtain ⟨rng, h1, h2⟩ := exists_ideal_prefix
  have hV : Discrete.Valid (n := 1) stickyModel := by
    refine ⟨fun j => ?_, ?_, fun t i j => ?_, fun t i => ?_⟩
    · fin_cases j <;> norm_num [stickyModel]
    · refine (Fin.sum_univ_two _).trans ?_
      norm_num [stickyModel]
    · fin_cases i <;> fin_cases j <;> norm_num [stickyModel]
    · refine (Fin.sum_univ_two _).trans ?_
      fin_cases i <;> norm_num [stickyModel]
  have hl : ∀ t j, 0 < stickyModel.lik t j := fun t j => by
    simp only [stickyModel]
    split_ifs <;> norm_num
  have ht : ∀ t i j, 0 < stickyModel.trans t i j := fun t i j => by
    simp only [stickyModel]
    split_ifs <;> norm_num
  have hf : ∀ t j, 0 < stickyModel.filterJoint t j := by
    intro t
    induction t with
    | zero =>
      intro j
      rw [HMM.filterJoint_zero]
      fin_cases j <;> norm_num [stickyModel]
    | succ t ih =>
      intro j
      rw [HMM.filterJoint_succ]
      exact Finset.sum_pos (fun i _ => mul_pos (ih i) (mul_pos (ht t i j) (hl t j))) Finset.univ_nonempty
  obtain ⟨mdl, h3, -, -⟩ := exists_simulatesHMM h1 stickyModel hV (fun t j => (hl t j).le) 3
  refine ⟨rng, mdl, h2, h3, hV, fun t _ i => ?_, fun t _ j => ?_, ⟨fun u _ j => rfl, fun t u hu i j => ?_,
    fun t u hu j => ⟨trivial, ?_⟩⟩⟩
  · exact Finset.sum_pos (fun j _ => mul_pos (ht t i j) (hl t j)) Finset.univ_nonempty
  · exact Finset.sum_pos (fun i _ => mul_pos (hf t i) (ht t i j)) Finset.univ_nonempty
  · obtain ⟨h4, h5⟩ := List.getElem?_eq_some_iff.mp hu
    simp only [List.getElem_range] at h5
    subst h5
    rfl
  · obtain ⟨h4, h5⟩ := List.getElem?_eq_some_iff.mp hu
    simp only [List.getElem_range] at h5
    subst h5
    exact Real.exp_log (hl t j)

/-! ## Linear-Gaussian models -/

section lgssm

variable [MeasurableSpace K] {P : Measure K} {rng : Rng K} {nx ny : ℕ} {mdl : FKModel K (Fin nx → ℝ) Inp}
  {u0 : Inp} {us : List Inp}

theorem gaussLogDensity_le {ι κ : Type*} [Fintype ι] [DecidableEq ι] [Fintype κ] (L : Matrix ι κ ℝ) (m y : ι → ℝ) :
    gaussLogDensity m (L * Lᵀ) y ≤
      -(Fintype.card ι / 2 * Real.log (2 * Real.pi)) - 1 / 2 * Real.log (L * Lᵀ).det := by
  have h1 : (L * Lᵀ).PosSemidef := by
    have := Matrix.posSemidef_self_mul_conjTranspose L
    rwa [Matrix.conjTranspose_eq_transpose_of_trivial] at this
  have h2 := h1.inv.dotProduct_mulVec_nonneg (y - m)
  rw [star_trivial] at h2
  rw [gaussLogDensity]
  linarith

/-- Gaussian likelihoods are bounded functions of the state. -/
theorem exists_lik_le (ss : List (Step nx ny)) : ∃ B : ℝ, ∀ s ∈ ss, ∀ x, s.lik x ≤ ENNReal.ofReal B := by
  induction ss with
  | nil => exact ⟨0, by simp⟩
  | cons s ss ih =>
    obtain ⟨B, hB⟩ := ih
    refine ⟨max B (Real.exp (-(Fintype.card (Obs s.y) / 2 * Real.log (2 * Real.pi)) - 1 / 2 * Real.log s.R.det)),
      fun s' hs' x => ?_⟩
    rcases List.mem_cons.mp hs' with rfl | hs'
    · exact ENNReal.ofReal_le_ofReal ((Real.exp_le_exp.mpr (gaussLogDensity_le _ _ _)).trans (le_max_right _ _))
    · exact (hB s' hs' x).trans (ENNReal.ofReal_le_ofReal (le_max_left _ _))

variable {m0 : Fin nx → ℝ} {cholP0 : Matrix (Fin nx) (Fin nx) ℝ} {step : Inp → Step nx ny}

theorem SimulatesLGSSM.bounded (hM : SimulatesLGSSM P mdl m0 cholP0 step u0 us) :
    ∃ B : ℝ, ∀ u ∈ us, ∀ x x', (mdl.logPotential x x' u).lik ≤ B := by
  obtain ⟨B, hB⟩ := exists_lik_le (us.map step)
  refine ⟨max B 0, fun u hu x x' => ?_⟩
  have h1 := hB _ (List.mem_map.mpr ⟨u, hu, rfl⟩) x'
  rw [← hM.lik u hu x x'] at h1
  exact (ENNReal.ofReal_le_ofReal_iff (le_max_right B 0)).mp (h1.trans (ENNReal.ofReal_le_ofReal (le_max_left _ _)))

theorem SimulatesLGSSM.fkExp_eq (hM : SimulatesLGSSM P mdl m0 cholP0 step u0 us) (t : ℕ)
    (f : (ℕ → Fin nx → ℝ) → ℝ≥0∞) :
    fkExp (mdl.init P u0) ((us.take t).map (mdl.step P)) f = jointExp m0 cholP0 ((us.take t).map step) f := by
  rw [jointExp_eq_fk, FKModel.init, hM.init, List.map_map]
  congr 1
  refine List.map_congr_left fun u hu => ?_
  have hu' := List.mem_of_mem_take hu
  simp only [FKModel.step, Function.comp_apply, Step.toFK, hM.trans u hu', hM.lik u hu']

omit [MeasurableSpace K] in
theorem fkMean_of_law {E : Type*} [MeasurableSpace E] {μ : Measure E} {ss : List (FKStep E)} {s : ℕ} {ν : Measure E}
    [IsProbabilityMeasure ν] {l : ℝ} (h : ∀ φ : E → ℝ≥0∞, Measurable φ →
      fkExp μ ss (fun p => φ (p s)) = ENNReal.ofReal (Real.exp l) * ∫⁻ x, φ x ∂ν) {φ : E → ℝ} (hφ : Measurable φ)
    {c : ℝ} (hc : ∀ x, |φ x| ≤ c) :
    (fkExp μ ss fun _ => 1) = ENNReal.ofReal (Real.exp l) ∧ fkMean μ ss (fun p => φ (p s)) = ∫ x, φ x ∂ν := by
  have h1 : (fkExp μ ss fun _ => 1) = ENNReal.ofReal (Real.exp l) := by
    rw [h (fun _ => 1) measurable_const]
    simp
  refine ⟨h1, ?_⟩
  have hi : Integrable φ ν := Integrable.of_bound hφ.aestronglyMeasurable c (Eventually.of_forall fun x => hc x)
  rw [fkMean, h1, h (fun x => ENNReal.ofReal (φ x)) (ENNReal.measurable_ofReal.comp hφ),
    h (fun x => ENNReal.ofReal (-φ x)) (ENNReal.measurable_ofReal.comp hφ.neg), ENNReal.toReal_mul,
    ENNReal.toReal_mul, ENNReal.toReal_ofReal (Real.exp_pos l).le, ← mul_sub,
    mul_div_cancel_left₀ _ (Real.exp_pos l).ne', integral_eq_lintegral_pos_part_sub_lintegral_neg_part hi]

/-- C78, linear-Gaussian models. Give the Kalman filter the parameters and the particle filter callbacks that
simulate the same model. As the number of particles grows, for every time the weighted average of any bounded
function of the particles converges in probability to its mean under the Gaussian law that the Kalman filter
returns, and `log_normalizing_constant` to that of the Kalman filter (for the models for which that is finite, see
C27). For both kinds of generator. -/
theorem particle_filter_agrees_kalman (h : IdealRng rng P) (hI : IndepSplit rng.toPrng P ∨ PrefixSplit rng.toPrng)
    (pf : Platform) (cb : Kalman.Callbacks nx ny Inp') {v0 : Inp'} {vs : List Inp'}
    (hM : SimulatesLGSSM P mdl (cb.getInit v0).1 (cb.getInit v0).2 step u0 us)
    (hs : us.map step = vs.map (Kalman.stepOf cb))
    (h0 : Measurable fun k => mdl.initSample k u0) (hu : ∀ u ∈ us, mdl.Regular u)
    (hdet : ∀ v ∈ vs, (Kalman.stepOf cb v).R.det ≠ 0)
    {R : ∀ N : ℕ, Resampler K (N + 1) (Fin nx → ℝ)}
    (hR : (R = fun _ => multinomial rng pf) ∨ R = fun _ => killing rng pf) (dummy : Fin nx → ℝ)
    (qr : QR) (rng' : Prng K') (parallel : Bool) (key' : Option K') :
    ∃ (S : ∀ N : ℕ, K → ℕ → PFState K (Fin nx → ℝ) Inp (N + 1)) (states : List (Kalman.FilterState nx Inp')),
      (∀ N k, filter rng.toPrng (particleFilter rng.toPrng mdl dummy (N + 1) (R N)) (u0 :: us) false (some k) =
        ⟨false, .ok ((List.range (us.length + 1)).map fun t => .ok (S N k t))⟩) ∧
      (filter rng' (Kalman.buildFilter qr cb) (v0 :: vs) parallel key').result = .ok states ∧
      states.length = us.length + 1 ∧
      ∀ t s, states[t]? = some s → ∃ m L, s.mean = some m ∧ s.cholCov = some L ∧ ∀ ε : ℝ, 0 < ε →
        (∀ (φ : (Fin nx → ℝ) → ℝ) (c : ℝ), Measurable φ → (∀ x, |φ x| ≤ c) →
          Tendsto (fun N => P {k | ε ≤ |∑ i, nw (S N k t).logWeights i * φ ((S N k t).particles i) -
            ∫ x, φ x ∂gauss m L|}) atTop (𝓝 0)) ∧
        (IsLower (cb.getInit v0).2 → (∀ i, (cb.getInit v0).2 i i ≠ 0) →
          (∀ v ∈ vs, (parallel = false ∧ (Kalman.stepOf cb v).F.det ≠ 0) ∨
            ((Kalman.stepOf cb v).cholQ * ((Kalman.stepOf cb v).cholQ)ᵀ).det ≠ 0) →
          ∃ l, s.logNormalizingConstant = some l ∧
            Tendsto (fun N => P {k | ¬ ∃ l' : ℝ, (S N k t).logZ = Fl.fin l' ∧ |l' - l| < ε}) atTop (𝓝 0)) := by
  obtain ⟨B, hB⟩ := hM.bounded
  obtain ⟨c1, c2, -⟩ := particle_filter_consistent h hI pf h0 hu hB dummy
  have hC : ConsistentRuns rng P mdl R dummy u0 us := by
    rcases hR with rfl | rfl
    · exact c1
    · exact c2
  obtain ⟨S, hS, hc⟩ := hC
  have hlen : us.length = vs.length := by simpa using congrArg List.length hs
  obtain ⟨states, hst, hl, hall⟩ := Kalman.kalman_filter_exact qr rng' cb v0 vs parallel key' hdet
  refine ⟨S, states, hS, hst, by omega, fun t s hts => ?_⟩
  have ht : t ≤ us.length := by
    have := (List.getElem?_eq_some_iff.mp hts).1
    omega
  obtain ⟨s', m, L, l, h1, h2, h3, h4, h5⟩ := hall t (by omega)
  rw [hts, Option.some.injEq] at h1
  subst h1
  have hlaw : ∀ φ : (Fin nx → ℝ) → ℝ≥0∞, Measurable φ →
      fkExp (mdl.init P u0) ((us.take t).map (mdl.step P)) (fun p => φ (p t)) =
        ENNReal.ofReal (Real.exp l) * ∫⁻ x, φ x ∂gauss m L := by
    intro φ hφ
    rw [hM.fkExp_eq t, ← h4 φ hφ, List.map_take, hs, ← List.map_take]
  have hz : Real.exp l = (fkExp (mdl.init P u0) ((us.take t).map (mdl.step P)) fun _ => 1).toReal := by
    rw [(fkMean_of_law hlaw (φ := fun _ => 0) measurable_const (c := 0) (by simp)).1,
      ENNReal.toReal_ofReal (Real.exp_pos l).le]
  refine ⟨m, L, h2, h3, fun ε hε => ?_⟩
  obtain ⟨h6, h7⟩ := hc t ht _ hz (Real.exp_pos l) ε hε
  refine ⟨fun φ c hφ hφc => ?_, fun hlow hdiag hQ => ⟨l, (h5 hlow).2 hdiag hQ, ?_⟩⟩
  · have h8 := h7 (fun p => φ (p t)) c (hφ.comp (measurable_pi_apply t)) fun p => hφc _
    rw [(fkMean_of_law hlaw hφ hφc).2] at h8
    simp only [average_last] at h8
    exact h8
  · rw [Real.log_exp] at h6
    exact h6

/-- C78, linear-Gaussian models, smoothing: the weighted average of a bounded function of the ancestors at time `t`
of the final particles converges in probability to its mean under the Gaussian law that the Kalman smoother returns
for `t`. -/
theorem ancestors_agree_kalman_smoother (h : IdealRng rng P)
    (hI : IndepSplit rng.toPrng P ∨ PrefixSplit rng.toPrng)
    (pf : Platform) (cb : Kalman.Callbacks nx ny Inp') {v0 : Inp'} {vs : List Inp'} (hvs : vs ≠ [])
    (hM : SimulatesLGSSM P mdl (cb.getInit v0).1 (cb.getInit v0).2 step u0 us)
    (hs : us.map step = vs.map (Kalman.stepOf cb))
    (h0 : Measurable fun k => mdl.initSample k u0) (hu : ∀ u ∈ us, mdl.Regular u)
    (hdet : ∀ v ∈ vs, (Kalman.stepOf cb v).R.det ≠ 0)
    {R : ∀ N : ℕ, Resampler K (N + 1) (Fin nx → ℝ)}
    (hR : (R = fun _ => multinomial rng pf) ∨ R = fun _ => killing rng pf) (dummy : Fin nx → ℝ)
    (qr : QR) (rng' rng'' : Prng K') (parallel parallel' : Bool) (key' key'' : Option K')
    (opts : Kalman.SmootherOpts nx Inp') (filterStates : List (Kalman.FilterState nx Inp'))
    (hf : (filter rng' (Kalman.buildFilter qr cb) (v0 :: vs) parallel key').result = .ok filterStates)
    (hP : ∀ (t : ℕ) s L v, filterStates[t]? = some s → s.cholCov = some L → vs[t]? = some v →
      ((Kalman.stepOf cb v).F * (L * Lᵀ) * ((Kalman.stepOf cb v).F)ᵀ +
        (Kalman.stepOf cb v).cholQ * ((Kalman.stepOf cb v).cholQ)ᵀ).det ≠ 0) :
    ∃ (S : ∀ N : ℕ, K → ℕ → PFState K (Fin nx → ℝ) Inp (N + 1)) (states : List (Kalman.SmootherState nx Inp')),
      (∀ N k, filter rng.toPrng (particleFilter rng.toPrng mdl dummy (N + 1) (R N)) (u0 :: us) false (some k) =
        ⟨false, .ok ((List.range (us.length + 1)).map fun t => .ok (S N k t))⟩) ∧
      (smoother rng'' Kalman.FilterState.modelInputs (fun u => .ok (opts.dummy u))
        (Kalman.buildSmoother qr cb.getDynamics opts) filterStates none parallel' key'').result = .ok states ∧
      states.length = us.length + 1 ∧
      ∀ t s, states[t]? = some s → ∃ m L, s.mean = some m ∧ s.cholCov = some L ∧ ∀ ε : ℝ, 0 < ε →
        ∀ (φ : (Fin nx → ℝ) → ℝ) (c : ℝ), Measurable φ → (∀ x, |φ x| ≤ c) →
          Tendsto (fun N => P {k | ε ≤ |average (S N k) us.length (fun p => φ (p t)) - ∫ x, φ x ∂gauss m L|})
            atTop (𝓝 0) := by
  obtain ⟨B, hB⟩ := hM.bounded
  obtain ⟨c1, c2, -⟩ := particle_filter_consistent h hI pf h0 hu hB dummy
  have hC : ConsistentRuns rng P mdl R dummy u0 us := by
    rcases hR with rfl | rfl
    · exact c1
    · exact c2
  obtain ⟨S, hS, hc⟩ := hC
  have hlen : us.length = vs.length := by simpa using congrArg List.length hs
  obtain ⟨states, l, hst, hl, hall, -⟩ := Kalman.kalman_smoother_exact qr rng' rng'' cb v0 vs hvs parallel parallel'
    key' key'' opts hdet filterStates hf hP none (.inl rfl)
  refine ⟨S, states, hS, hst, by omega, fun t s hts => ?_⟩
  have ht : t ≤ us.length := by
    have := (List.getElem?_eq_some_iff.mp hts).1
    omega
  obtain ⟨s', m, L, h1, h2, h3, h4⟩ := hall t (by omega)
  rw [hts, Option.some.injEq] at h1
  subst h1
  have hlaw : ∀ φ : (Fin nx → ℝ) → ℝ≥0∞, Measurable φ →
      fkExp (mdl.init P u0) ((us.take us.length).map (mdl.step P)) (fun p => φ (p t)) =
        ENNReal.ofReal (Real.exp l) * ∫⁻ x, φ x ∂gauss m L := by
    intro φ hφ
    rw [hM.fkExp_eq us.length, ← h4 φ hφ, List.take_length, hs]
  have hz : Real.exp l = (fkExp (mdl.init P u0) ((us.take us.length).map (mdl.step P)) fun _ => 1).toReal := by
    rw [(fkMean_of_law hlaw (φ := fun _ => 0) measurable_const (c := 0) (by simp)).1,
      ENNReal.toReal_ofReal (Real.exp_pos l).le]
  refine ⟨m, L, h2, h3, fun ε hε φ c hφ hφc => ?_⟩
  have h8 := (hc us.length le_rfl _ hz (Real.exp_pos l) ε hε).2 (fun p => φ (p t)) c
    (hφ.comp (measurable_pi_apply t)) fun p => hφc _
  rw [(fkMean_of_law hlaw hφ hφc).2] at h8
  exact h8

/-- C78, linear-Gaussian models, without a limit: the expectation of `exp(log_normalizing_constant)` of the particle
filter is the exponential of the Kalman filter's log evidence, for any number of particles. -/
theorem particle_filter_mean_kalman [NeZero N] (h : IdealRng rng P)
    (pf : Platform) (cb : Kalman.Callbacks nx ny Inp') {v0 : Inp'} {vs : List Inp'}
    (hM : SimulatesLGSSM P mdl (cb.getInit v0).1 (cb.getInit v0).2 step u0 us)
    (hs : us.map step = vs.map (Kalman.stepOf cb))
    (h0 : Measurable fun k => mdl.initSample k u0) (hu : ∀ u ∈ us, mdl.Regular u)
    (hdet : ∀ v ∈ vs, (Kalman.stepOf cb v).R.det ≠ 0) {R : Resampler K N (Fin nx → ℝ)}
    (hR : (IndepSplit rng.toPrng P ∨ PrefixSplit rng.toPrng) ∧ (R = systematic rng pf ∨ R = killing rng pf) ∨
      IndepSplit rng.toPrng P ∧ R = multinomial rng pf) (dummy : Fin nx → ℝ)
    (qr : QR) (rng' : Prng K') (parallel : Bool) (key' : Option K')
    (hlow : IsLower (cb.getInit v0).2) (hdiag : ∀ i, (cb.getInit v0).2 i i ≠ 0)
    (hQ : ∀ v ∈ vs, (parallel = false ∧ (Kalman.stepOf cb v).F.det ≠ 0) ∨
      ((Kalman.stepOf cb v).cholQ * ((Kalman.stepOf cb v).cholQ)ᵀ).det ≠ 0) :
    ∃ (S : K → ℕ → PFState K (Fin nx → ℝ) Inp N) (states : List (Kalman.FilterState nx Inp')),
      (∀ k, filter rng.toPrng (particleFilter rng.toPrng mdl dummy N R) (u0 :: us) false (some k) =
        ⟨false, .ok ((List.range (us.length + 1)).map fun t => .ok (S k t))⟩) ∧
      (filter rng' (Kalman.buildFilter qr cb) (v0 :: vs) parallel key').result = .ok states ∧
      states.length = us.length + 1 ∧
      ∀ t s, states[t]? = some s → ∃ m L l, s.mean = some m ∧ s.cholCov = some L ∧
        s.logNormalizingConstant = some l ∧
        ∫⁻ k, ENNReal.ofReal (S k t).logZ.lik ∂P = ENNReal.ofReal (Real.exp l) ∧
        ∀ φ : (Fin nx → ℝ) → ℝ≥0∞, Measurable φ →
          ∫⁻ k, ENNReal.ofReal (S k t).logZ.lik * ∑ i, ENNReal.ofReal (nw (S k t).logWeights i) *
            φ ((S k t).particles i) ∂P = ENNReal.ofReal (Real.exp l) * ∫⁻ x, φ x ∂gauss m L := by
  have hU : UnbiasedRun rng P mdl R dummy u0 us := by
    rcases hR with ⟨hI, rfl | rfl⟩ | ⟨hI, rfl⟩
    · exact systematic_filter_unbiased h hI pf h0 us hu dummy
    · exact killing_filter_unbiased h hI pf h0 us hu dummy
    · exact multinomial_filter_unbiased_partial h hI pf h0 us hu dummy
  obtain ⟨S, hS, hg, hc⟩ := hU
  have hlen : us.length = vs.length := by simpa using congrArg List.length hs
  obtain ⟨states, hst, hl, hall⟩ := Kalman.kalman_filter_exact qr rng' cb v0 vs parallel key' hdet
  refine ⟨S, states, hS, hst, by omega, fun t s hts => ?_⟩
  have ht : t ≤ us.length := by
    have := (List.getElem?_eq_some_iff.mp hts).1
    omega
  obtain ⟨s', m, L, l, h1, h2, h3, h4, h5⟩ := hall t (by omega)
  rw [hts, Option.some.injEq] at h1
  subst h1
  have hlaw : ∀ φ : (Fin nx → ℝ) → ℝ≥0∞, Measurable φ →
      fkExp (mdl.init P u0) ((us.take t).map (mdl.step P)) (fun p => φ (p t)) =
        ENNReal.ofReal (Real.exp l) * ∫⁻ x, φ x ∂gauss m L := by
    intro φ hφ
    rw [hM.fkExp_eq t, ← h4 φ hφ, List.map_take, hs, ← List.map_take]
  refine ⟨m, L, l, h2, h3, (h5 hlow).2 hdiag hQ, ?_, fun φ hφ => ?_⟩
  · rw [← (fkMean_of_law hlaw (φ := fun _ => 0) measurable_const (c := 0) (by simp)).1,
      ← (hc t ht _ measurable_const).2]
    refine lintegral_congr fun k => ?_
    rw [pathEst]
    rcases (hg k t ht).2.2 with h4 | h4
    · simp only [mul_one]
      rw [← ENNReal.ofReal_sum_of_nonneg fun i _ => nw_nonneg _ i, nw_sum h4, ENNReal.ofReal_one, mul_one]
    · rw [h4]
      simp [Fl.lik]
  · have hm : Measurable fun p : ℕ → Fin nx → ℝ => φ (p t) := hφ.comp (measurable_pi_apply t)
    rw [← hlaw φ hφ, ← (hc t ht _ hm).2]
    refine lintegral_congr fun k => ?_
    simp only [pathEst, ancestralPath_self]

/-- Standard normal vectors can be drawn with `rng.uniform0`. -/
theorem exists_normal (h : IdealRng rng P) (nx : ℕ) : ∃ g : K → Fin nx → ℝ, Measurable g ∧ P.map g = stdNormal (Fin nx) := by
  obtain ⟨f, hf, hf'⟩ := ProbabilityTheory.Kernel.exists_measurable_map_eq_unitInterval
    (ProbabilityTheory.Kernel.const Unit (stdNormal (Fin nx)))
  have hfm : Measurable (f ()) := hf.comp (measurable_const.prodMk measurable_id)
  have hp : Measurable (projIcc (0 : ℝ) 1 zero_le_one) := (continuous_projIcc).measurable
  have hu : unif.map (projIcc (0 : ℝ) 1 zero_le_one) = (volume : Measure unitInterval) := by
    have h1 : (volume : Measure unitInterval).map (Subtype.val) = unif := by
      rw [unif, show (volume : Measure unitInterval) = Measure.comap Subtype.val volume from rfl,
        map_comap_subtype_coe (measurableSet_Icc), Measure.restrict_congr_set Ico_ae_eq_Icc]
    rw [← h1, Measure.map_map hp measurable_subtype_coe]
    have h2 : projIcc (0 : ℝ) 1 zero_le_one ∘ Subtype.val = id := funext fun x => projIcc_val _ x
    rw [h2, Measure.map_id]
  refine ⟨fun k => f () (projIcc 0 1 zero_le_one (rng.uniform0 k)), hfm.comp (hp.comp h.uniform0.measurable), ?_⟩
  have h3 : (fun k => f () (projIcc 0 1 zero_le_one (rng.uniform0 k))) =
      (f () ∘ projIcc 0 1 zero_le_one) ∘ rng.uniform0 := rfl
  rw [h3, ← Measure.map_map (hfm.comp hp) h.uniform0.measurable, h.uniform0.map_eq, ← Measure.map_map hfm hp, hu, hf' ()]
  rfl

/-- The hypotheses of C78 can be met for every linear-Gaussian model. The inputs are those of the Kalman filter. -/
theorem exists_simulatesLGSSM (h : IdealRng rng P) (cb : Kalman.Callbacks nx ny Inp) (u0 : Inp) (us : List Inp) :
    ∃ mdl : FKModel K (Fin nx → ℝ) Inp,
      SimulatesLGSSM P mdl (cb.getInit u0).1 (cb.getInit u0).2 (Kalman.stepOf cb) u0 us ∧
      (Measurable fun k => mdl.initSample k u0) ∧ ∀ u, mdl.Regular u := by
  obtain ⟨g, hg, hg'⟩ := exists_normal h nx
  have hL : ∀ L : Matrix (Fin nx) (Fin nx) ℝ, Measurable fun x : Fin nx → ℝ => L *ᵥ x := fun L =>
    (Matrix.mulVecLin L).continuous_of_finiteDimensional.measurable
  have hgauss : ∀ m (L : Matrix (Fin nx) (Fin nx) ℝ), P.map (fun k => m + L *ᵥ g k) = gauss m L := fun m L => by
    rw [gauss, ← hg', Measure.map_map ((hL L).const_add m) hg]
    rfl
  refine ⟨⟨fun k u => (cb.getInit u).1 + (cb.getInit u).2 *ᵥ g k,
    fun k x u => ((Kalman.stepOf cb u).F *ᵥ x + (Kalman.stepOf cb u).c) + (Kalman.stepOf cb u).cholQ *ᵥ g k,
    fun _ x u => Fl.fin (gaussLogDensity (obsH (Kalman.stepOf cb u).y (Kalman.stepOf cb u).H *ᵥ x +
      obsV (Kalman.stepOf cb u).y (Kalman.stepOf cb u).d) (Kalman.stepOf cb u).R (obsY (Kalman.stepOf cb u).y))⟩,
    ⟨hgauss _ _, fun u _ x => hgauss _ _, fun u _ x x' => rfl⟩, ?_, fun u => ⟨?_, ?_, ?_⟩⟩
  · exact ((hL _).comp hg).const_add _
  · exact (((hL _).comp measurable_snd).add_const _).add ((hL _).comp (hg.comp measurable_fst))
  · exact Fl.measurable_fin.comp ((measurable_gaussLogDensity _ _ _ _).comp measurable_snd)
  · intro x x'
    trivial

end lgssm

/-- All hypotheses of `particle_filter_agrees_kalman` and `particle_filter_mean_kalman` together: a random walk
observed with noise, the second observation missing. -/
example : ∃ (rng : Rng Key) (mdl : FKModel Key (Fin 1 → ℝ) ℕ) (cb : Kalman.Callbacks 1 1 ℕ), PrefixSplit rng.toPrng ∧
    IdealRng rng keyLaw ∧
    SimulatesLGSSM keyLaw mdl (cb.getInit 0).1 (cb.getInit 0).2 (Kalman.stepOf cb) 0 [1, 2, 3] ∧
    (Kalman.stepOf cb 1).y = ![some 5] ∧ (Kalman.stepOf cb 2).y = ![none] ∧
    (∀ v ∈ [1, 2, 3], (Kalman.stepOf cb v).R.det ≠ 0) ∧ IsLower (cb.getInit 0).2 ∧ (∀ i, (cb.getInit 0).2 i i ≠ 0) ∧
    ∀ v ∈ [1, 2, 3], ((Kalman.stepOf cb v).cholQ * ((Kalman.stepOf cb v).cholQ)ᵀ).det ≠ 0 := by
  obtain ⟨rng, h1, h2⟩ := exists_ideal_prefix
  let cb : Kalman.Callbacks 1 1 ℕ := ⟨fun _ => (0, 1), fun _ => (1, 0, 1),
    fun t => (1, 0, 1, if t = 2 then ![none] else ![some 5])⟩
  obtain ⟨mdl, h3, -, -⟩ := exists_simulatesLGSSM h1 cb 0 [1, 2, 3]
  refine ⟨rng, mdl, cb, h2, h1, h3, rfl, rfl, fun v _ => Kalman.obsR_det _ _ ?_, ?_, ?_, ?_⟩
  · simp [Kalman.stepOf, cb]
  · intro i j hij
    exact Matrix.one_apply_ne hij.ne
  · simp [cb]
  · simp [Kalman.stepOf, cb]

end

end Cuthbert.SMC
