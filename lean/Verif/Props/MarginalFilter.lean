import Verif.Props.ParticleFilterKeys
import Verif.Props.ParticleFilterRuns
import Verif.Props.ParticleSmoother

/-!
# Properties: the marginal particle filter (C59, C72)
-/

namespace Cuthbert.SMC
open MeasureTheory Set Resampling Spec
open scoped ENNReal

noncomputable section

variable {K X Inp : Type} {N : ℕ}

/-! ### Runs -/

/-- One step of the marginal particle filter. -/
theorem marginalFilterCombine_eq {rng : Prng K} {mdl : FKModel K X Inp} {R : Resampler K N X}
    {s1 s2 : MPFState K X Inp N} {r : Resampled N N X}
    (hr : R (rng.nth s1.key (N + 1) 0) s1.logWeights s1.particles N = .ok r)
    {x' : Fin N → X} (hx' : x' = fun i => mdl.propagate (rng.nth s1.key (N + 1) i.succ) (r.positions i) s2.modelInputs)
    {lw : Fin N → Fl} (hlw : lw = fun i => Fl.logsumexp fun j => mdl.logPotential (s1.particles j) (x' i) s2.modelInputs +
      (s1.logWeights j - Fl.logsumexp s1.logWeights)) :
    marginalFilterCombine rng mdl R s1 s2 = .ok ⟨s2.key, x', lw, s2.modelInputs,
      Fl.logsumexp lw - Fl.logsumexp r.logits + s1.logZ⟩ := by
  subst hx' hlw
  unfold marginalFilterCombine
  simp only [hr]
  rfl

/-- The states of a run are the initial state and the results of the steps. -/
theorem marginal_run (rng : Prng K) (mdl : FKModel K X Inp) (dummy : X) (R : Resampler K N X) (u0 : Inp)
    (us : List Inp) (k : K) :
    ∃ states, (filter rng (marginalParticleFilter rng mdl dummy N R) (u0 :: us) false (some k)).result = .ok states ∧
      states.length = us.length + 1 ∧
      states[0]? = some (marginalInitPrepare rng mdl N u0 (some (rng.nth k (us.length + 1) 0))) ∧
      ∀ t (ht : t < us.length) e, states[t]? = some e → states[t + 1]? = some (do
        marginalFilterCombine rng mdl R (← e)
          ⟨rng.nth k (us.length + 1) ⟨t + 1, by omega⟩, fun _ => dummy, fun _ => 0, us[t], 0⟩) := by
  refine ⟨_, filter_sequential_eq rng _ u0 us (some k), ?_, ?_, fun t ht e he => ?_⟩
  · rw [runningFold_length, filterElems_length]
  · rw [runningFold_get_zero, keyAt_nth _ _ _ _ (Nat.succ_pos _)]
    rfl
  · have hel := filterElems_get rng (marginalParticleFilter rng mdl dummy N R) us (some k) t
    rw [List.getElem?_eq_getElem ht, Option.map_some, keyAt_nth _ _ _ _ (show t + 1 < us.length + 1 by omega)] at hel
    have h1 := runningFold_get_succ _ _ _ t _ e hel he
    rw [h1]
    rfl

/-! ## C59 -/

/-- The weight of a new particle: the mixture of the potentials over all old particles. -/
theorem mixture_weight {l : Fin N → Fl} (hl : IsLogits l) {g : Fin N → Fl} (hg : ∀ j, (g j).IsLog) :
    (Fl.logsumexp fun j => g j + (l j - Fl.logsumexp l)) = Fl.log (Fl.fin (∑ j, nw l j * (g j).lik)) := by
  rw [logsumexp_eq hl]
  have h1 : ∀ j, (g j + (l j - Fl.fin (Real.log (∑ j, (l j).lik)))).IsLog := fun j =>
    (hg j).add ((hl.1 j).sub_fin _)
  rw [Fl.logsumexp_isLog h1]
  congr 3
  funext j
  rw [Fl.lik_add (hg j) ((hl.1 j).sub_fin _), Fl.lik_sub_fin (hl.1 j), Real.exp_log (sum_lik_pos hl), nw]
  ring

/-- C59: if the resampling function returns equal weights, then the evidence increment of every step of
every run is the log of the average over the new particles of the mixture of the potentials over the
normalised previous weights. Missing: this is false for adaptive resampling, see
`marginal_adaptive_evidence`. -/
theorem marginal_filter_evidence_partial [NeZero N] (rng : Prng K) (mdl : FKModel K X Inp) (dummy : X)
    (R : Resampler K N X) (hR : ∀ k l pos r, R k l pos N = .ok r → r.logits = fun _ => 0)
    (hG : ∀ x x' u, (mdl.logPotential x x' u).IsLog) (u0 : Inp) (us : List Inp) (k : K) :
    ∃ states, (filter rng (marginalParticleFilter rng mdl dummy N R) (u0 :: us) false (some k)).result = .ok states ∧
      states.length = us.length + 1 ∧
      ∀ t (ht : t < us.length) s', states[t + 1]? = some (.ok s') →
        ∃ s, states[t]? = some (.ok s) ∧ (IsLogits s.logWeights →
          (∀ i, s'.logWeights i = Fl.log (Fl.fin (∑ j, nw s.logWeights j *
            (mdl.logPotential (s.particles j) (s'.particles i) us[t]).lik))) ∧
          s'.logZ = Fl.log (Fl.fin ((∑ i, ∑ j, nw s.logWeights j *
            (mdl.logPotential (s.particles j) (s'.particles i) us[t]).lik) / N)) + s.logZ) := by
  obtain ⟨states, h1, h2, h3, h4⟩ := marginal_run rng mdl dummy R u0 us k
  refine ⟨states, h1, h2, fun t ht s' hs' => ?_⟩
  obtain ⟨e, he⟩ : ∃ e, states[t]? = some e := ⟨_, List.getElem?_eq_getElem (by omega)⟩
  have h5 := h4 t ht e he
  rw [hs'] at h5
  have h6 := Option.some.inj h5
  cases e with
  | error e => cases h6
  | ok s =>
    refine ⟨s, he, fun hl => ?_⟩
    obtain ⟨s2, hs2⟩ : ∃ s2 : MPFState K X Inp N, s2 = ⟨rng.nth k (us.length + 1) ⟨t + 1, by omega⟩, fun _ => dummy,
      fun _ => 0, us[t], 0⟩ := ⟨_, rfl⟩
    have h7 : marginalFilterCombine rng mdl R s s2 = .ok s' := by rw [hs2]; exact h6.symm
    cases hr : R (rng.nth s.key (N + 1) 0) s.logWeights s.particles N with
    | error e =>
      unfold marginalFilterCombine at h7
      simp only [hr] at h7
      cases h7
    | ok r =>
      rw [marginalFilterCombine_eq hr rfl rfl] at h7
      have h8 := (Except.ok.inj h7).symm
      have hin : s2.modelInputs = us[t] := by rw [hs2]
      subst h8
      dsimp only
      rw [hin, hR _ _ _ _ hr, logsumexp_zero]
      have hw : ∀ i, (Fl.logsumexp fun j => mdl.logPotential (s.particles j) (mdl.propagate
          (rng.nth s.key (N + 1) i.succ) (r.positions i) us[t]) us[t] +
          (s.logWeights j - Fl.logsumexp s.logWeights)) = _ := fun i =>
        mixture_weight hl fun j => hG _ _ _
      refine ⟨hw, ?_⟩
      congr 1
      simp only [hw]
      have hpos : ∀ i, 0 ≤ ∑ j, nw s.logWeights j * (mdl.logPotential (s.particles j) (mdl.propagate
          (rng.nth s.key (N + 1) i.succ) (r.positions i) us[t]) us[t]).lik := fun i =>
        Finset.sum_nonneg fun j _ => mul_nonneg (nw_nonneg _ _) (Fl.lik_nonneg _)
      rw [Fl.logsumexp_isLog fun i => Fl.isLog_log (hpos i)]
      simp only [Fl.lik_log (hpos _)]
      have hN : (0 : ℝ) < N := by exact_mod_cast NeZero.pos N
      rcases (Finset.sum_nonneg fun i (_ : i ∈ Finset.univ) => hpos i).eq_or_lt with h9 | h9
      · rw [← h9, zero_div, Fl.log_zero]
        rfl
      · rw [Fl.log_fin _ h9, Fl.log_fin _ (div_pos h9 hN), Fl.fin_sub, Real.log_div h9.ne' hN.ne']

/-- The resampling functions other than the adaptive ones meet the hypothesis. -/
example [NeZero N] (rng : Rng K) (pf : Platform) (k : K) (l : Fin N → Fl) (pos : Fin N → X)
    (r : Resampled N N X) (h : killing rng pf k l pos N = .ok r) : r.logits = fun _ => 0 := by
  have h1 := uses_killing rng pf k l pos
  rw [h] at h1
  have h2 := Except.ok.inj h1
  subst h2
  rfl

theorem logsumexp_const [NeZero N] (a : ℝ) : Fl.logsumexp (fun _ : Fin N => Fl.fin a) = Fl.fin (a + Real.log N) := by
  have h1 : IsLogits (fun _ : Fin N => Fl.fin a) := ⟨fun _ => trivial, 0, trivial⟩
  have hN : (N : ℝ) ≠ 0 := by exact_mod_cast NeZero.ne N
  rw [logsumexp_eq h1]
  simp only [Fl.lik, Finset.sum_const, Finset.card_univ, Fintype.card_fin, nsmul_eq_mul]
  rw [Real.log_mul hN (Real.exp_pos _).ne', Real.log_exp, add_comm]

/-- Adaptive resampling keeps equal weights. -/
theorem adaptive_const [NeZero N] (R : Resampler K N X) {θ : ℝ} (h0 : 0 ≤ θ) (h1 : θ ≤ 1) (k : K) (a : ℝ)
    (pos : Fin N → X) : adaptive R θ k (fun _ => Fl.fin a) pos N =
      .ok ⟨id, fun _ => Fl.fin a, pos⟩ := by
  have hN : (0 : ℝ) < N := by exact_mod_cast NeZero.pos N
  rw [adaptive, dif_pos rfl, if_neg]
  · rfl
  · have hl : IsLogits (fun _ : Fin N => Fl.fin a) := ⟨fun _ => trivial, 0, trivial⟩
    have h2 : logEss (fun _ : Fin N => Fl.fin a) = Fl.fin (Real.log N) := by
      rw [logEss_eq hl]
      congr 2
      simp only [Fl.lik, Finset.sum_const, Finset.card_univ, Fintype.card_fin, nsmul_eq_mul]
      field_simp
    rw [h2, Fl.ltb_iff]
    rcases h0.eq_or_lt with h3 | h3
    · rw [← h3, zero_mul, Fl.log_zero]
      exact fun h => h
    · rw [Fl.log_fin _ (mul_pos h3 hN)]
      intro h
      have h4 : Real.log N < Real.log (θ * N) := h
      have h5 : θ * N ≤ N := by nlinarith
      exact absurd (Real.log_le_log (mul_pos h3 hN) h5) (not_le.mpr h4)

/-- The evidence of a model with a constant potential. -/
theorem fkExp_const [MeasurableSpace K] [MeasurableSpace X] {P : Measure K} [IsProbabilityMeasure P]
    (mdl : FKModel K X Inp) {a : ℝ} (hG : ∀ x x' u, mdl.logPotential x x' u = Fl.fin a)
    (hp : ∀ x u, Measurable fun k => mdl.propagate k x u) {u0 : Inp} (hi : Measurable fun k => mdl.initSample k u0)
    (us : List Inp) : fkExp (mdl.init P u0) (us.map (mdl.step P)) (fun _ => 1) =
      ENNReal.ofReal (Real.exp (us.length * a)) := by
  have h1 : ∀ (us : List Inp) x, fkPathExp (us.map (mdl.step P)) (fun _ => 1) x =
      ENNReal.ofReal (Real.exp (us.length * a)) := by
    intro us
    induction us with
    | nil => intro x; simp [fkPathExp]
    | cons u us ih =>
      intro x
      simp only [List.map_cons, fkPathExp, ih]
      simp only [FKModel.step, hG, Fl.lik]
      have := Measure.isProbabilityMeasure_map (μ := P) (hp x u).aemeasurable
      rw [lintegral_const, measure_univ, mul_one, ← ENNReal.ofReal_mul (Real.exp_pos _).le, ← Real.exp_add]
      congr 2
      push_cast [List.length_cons]
      ring
  have := Measure.isProbabilityMeasure_map (μ := P) hi.aemeasurable
  simp only [fkExp, h1]
  rw [lintegral_const, FKModel.init, measure_univ, mul_one]

/-- C59 is false of the code for adaptive resampling. If every log potential is `a`, the evidence
after `t` steps is `exp(t a)` (`fkExp_const`), but for every threshold between `0` and `1` the marginal particle
filter returns the log normalising constant `a` at all times `t ≥ 1`. -/
theorem marginal_adaptive_evidence [NeZero N] (rng : Prng K) (mdl : FKModel K X Inp) {a : ℝ}
    (hG : ∀ x x' u, mdl.logPotential x x' u = Fl.fin a) (dummy : X) (R : Resampler K N X) {θ : ℝ} (h0 : 0 ≤ θ)
    (h1 : θ ≤ 1) (u0 : Inp) (us : List Inp) (k : K) :
    ∃ states, (filter rng (marginalParticleFilter rng mdl dummy N (adaptive R θ)) (u0 :: us) false (some k)).result =
        .ok states ∧
      ∀ t < us.length, ∃ s, states[t + 1]? = some (.ok s) ∧ s.logZ = Fl.fin a := by
  obtain ⟨states, hs, -, h3, h4⟩ := marginal_run rng mdl dummy (adaptive R θ) u0 us k
  refine ⟨states, hs, ?_⟩
  have hinit : ∃ s, states[0]? = some (.ok s) ∧ s.logWeights = (fun _ => Fl.fin 0) ∧ s.logZ = Fl.fin 0 := by
    refine ⟨_, h3, rfl, ?_⟩
    dsimp only
    rw [logsumexp_zero, log_natCast, Fl.fin_sub, sub_self]
  have hstep : ∀ t (ht : t < us.length) s b, states[t]? = some (.ok s) → s.logWeights = (fun _ => Fl.fin b) →
      ∃ s', states[t + 1]? = some (.ok s') ∧ s'.logWeights = (fun _ => Fl.fin a) ∧
        s'.logZ = Fl.fin (a - b) + s.logZ := by
    intro t ht s b hst hw
    have h5 := h4 t ht _ hst
    obtain ⟨s2, hs2⟩ : ∃ s2 : MPFState K X Inp N, s2 = ⟨rng.nth k (us.length + 1) ⟨t + 1, by omega⟩, fun _ => dummy,
      fun _ => 0, us[t], 0⟩ := ⟨_, rfl⟩
    have hr := adaptive_const R h0 h1 (rng.nth s.key (N + 1) 0) b s.particles
    rw [← hw] at hr
    have h6 := marginalFilterCombine_eq (mdl := mdl) (s2 := s2) hr rfl rfl
    have hlw : (fun i : Fin N => Fl.logsumexp fun j => mdl.logPotential (s.particles j) (mdl.propagate
        (rng.nth s.key (N + 1) i.succ) (s.particles i) s2.modelInputs) s2.modelInputs +
          (s.logWeights j - Fl.logsumexp s.logWeights)) = fun _ => Fl.fin a := by
      funext i
      simp only [hG, hw, logsumexp_const, Fl.fin_sub, Fl.fin_add]
      congr 1
      ring
    rw [hlw] at h6
    refine ⟨_, h5.trans (by rw [← hs2]; exact congrArg some h6), rfl, ?_⟩
    dsimp only
    rw [hw, logsumexp_const, logsumexp_const, Fl.fin_sub]
    congr 2
    ring
  have hall : ∀ t < us.length, ∃ s, states[t + 1]? = some (.ok s) ∧ s.logWeights = (fun _ => Fl.fin a) ∧
      s.logZ = Fl.fin a := by
    intro t
    induction t with
    | zero =>
      intro ht
      obtain ⟨s, h5, h6, h7⟩ := hinit
      obtain ⟨s', h8, h9, h10⟩ := hstep 0 ht s 0 h5 h6
      exact ⟨s', h8, h9, by rw [h10, h7]; simp⟩
    | succ t ih =>
      intro ht
      obtain ⟨s, h5, h6, h7⟩ := ih (by omega)
      obtain ⟨s', h8, h9, h10⟩ := hstep (t + 1) ht s a h5 h6
      exact ⟨s', h8, h9, by rw [h10, h7]; simp⟩
  exact fun t ht => (hall t ht).imp fun s h => ⟨h.1, h.2.2⟩

/-- For three steps with log potential `-1` the filter returns `-1` instead of `-3`. -/
example (rng : Rng K) (pf : Platform) (k : K) : ∃ states s,
    (filter rng.toPrng (marginalParticleFilter rng.toPrng
      (⟨fun _ _ => (), fun _ _ _ => (), fun _ _ _ => Fl.fin (-1)⟩ : FKModel K Unit Unit) () 10
        (adaptive (systematic rng pf) (1 / 2))) [(), (), (), ()] false (some k)).result = .ok states ∧
      states[3]? = some (.ok s) ∧ s.logZ = Fl.fin (-1) := by
  obtain ⟨states, h1, h2⟩ := marginal_adaptive_evidence rng.toPrng
    (⟨fun _ _ => (), fun _ _ _ => (), fun _ _ _ => Fl.fin (-1)⟩ : FKModel K Unit Unit) (fun _ _ _ => rfl) ()
    (systematic (N := 10) rng pf) (θ := 1 / 2) (by norm_num) (by norm_num) () [(), (), ()] k
  obtain ⟨s, h3, h4⟩ := h2 2 (by simp)
  exact ⟨states, s, h1, h3, h4⟩

/-! ## C72 -/

/-- The state of the marginal particle filter that corresponds to a state of the particle filter. -/
def PFState.marginal (s : PFState K X Inp N) : MPFState K X Inp N :=
  ⟨s.key, s.particles, s.logWeights, s.modelInputs, s.logZ⟩

theorem marginal_run_eq [NeZero N] (rng : Prng K) (mdl : FKModel K X Inp) (dummy : X) {R : Resampler K N X}
    {I : K → (Fin N → Fl) → Fin N → Fin N} (hR : Uses R I zeroLogits)
    (hG : ∀ x₁ x₂ x' u, mdl.logPotential x₁ x' u = mdl.logPotential x₂ x' u)
    (hfin : ∀ x x' u, (mdl.logPotential x x' u).IsFin) (u0 : Inp) (us : List Inp) (k : K) :
    (filter rng (marginalParticleFilter rng mdl dummy N R) (u0 :: us) false (some k)).result =
      .ok ((List.range (us.length + 1)).map fun t => .ok (pfRun rng mdl I zeroLogits u0 us k t).marginal) := by
  obtain ⟨states, hs, hlen, h3, h4⟩ := marginal_run rng mdl dummy R u0 us k
  rw [hs]
  have key : ∀ t ≤ us.length, states[t]? = some (.ok (pfRun rng mdl I zeroLogits u0 us k t).marginal) ∧
      IsLogits (pfRun rng mdl I zeroLogits u0 us k t).logWeights := by
    intro t
    induction t with
    | zero =>
      intro _
      rw [pfRun_zero]
      refine ⟨?_, isLogits_zero⟩
      rw [h3]
      unfold marginalInitPrepare PFState.marginal pfInit
      simp only
      rw [logsumexp_zero, log_natCast, Fl.fin_sub, sub_self]
      rfl
    | succ t ih =>
      intro ht
      obtain ⟨h5, h6⟩ := ih (by omega)
      have h7 := h4 t (by omega) _ h5
      rw [pfRun_succ u0 us k t (by omega)]
      generalize pfRun rng mdl I zeroLogits u0 us k t = s at h5 h6 h7 ⊢
      have hr := hR (rng.nth s.key (N + 1) 0) s.logWeights s.particles
      have hlw : ∀ i, (Fl.logsumexp fun j => mdl.logPotential (s.particles j) (mdl.propagate
          (rng.nth s.key (N + 1) i.succ) (s.particles (I (rng.nth s.key (N + 1) 0) s.logWeights i)) us[t]) us[t] +
          (s.logWeights j - Fl.logsumexp s.logWeights)) =
          mdl.logPotential (s.particles (I (rng.nth s.key (N + 1) 0) s.logWeights i)) (mdl.propagate
            (rng.nth s.key (N + 1) i.succ) (s.particles (I (rng.nth s.key (N + 1) 0) s.logWeights i)) us[t]) us[t] + 0 := by
        intro i
        have h8 : ∀ j, mdl.logPotential (s.particles j) (mdl.propagate (rng.nth s.key (N + 1) i.succ)
            (s.particles (I (rng.nth s.key (N + 1) 0) s.logWeights i)) us[t]) us[t] =
            mdl.logPotential (s.particles (I (rng.nth s.key (N + 1) 0) s.logWeights i)) (mdl.propagate
            (rng.nth s.key (N + 1) i.succ) (s.particles (I (rng.nth s.key (N + 1) 0) s.logWeights i)) us[t]) us[t] :=
          fun j => hG _ _ _ _
        simp only [h8]
        have h9 := hfin (s.particles (I (rng.nth s.key (N + 1) 0) s.logWeights i)) (mdl.propagate
            (rng.nth s.key (N + 1) i.succ) (s.particles (I (rng.nth s.key (N + 1) 0) s.logWeights i)) us[t]) us[t]
        generalize mdl.logPotential (s.particles (I (rng.nth s.key (N + 1) 0) s.logWeights i)) (mdl.propagate
            (rng.nth s.key (N + 1) i.succ) (s.particles (I (rng.nth s.key (N + 1) 0) s.logWeights i)) us[t]) us[t] = g at h9
        rw [mixture_weight h6 fun _ => h9.isLog, ← Finset.sum_mul, nw_sum h6, one_mul, add_zero]
        cases g with
        | fin r => rw [Fl.lik, Fl.log_fin _ (Real.exp_pos r), Real.log_exp]
        | nan => exact h9.elim
        | ninf => exact h9.elim
        | pinf => exact h9.elim
      have h8 : marginalFilterCombine rng mdl R s.marginal ⟨rng.nth k (us.length + 1) ⟨t + 1, by omega⟩,
          fun _ => dummy, fun _ => 0, us[t], 0⟩ = .ok (stepTo rng mdl I zeroLogits s us[t]
            (rng.nth k (us.length + 1) ⟨t + 1, by omega⟩)).marginal :=
        marginalFilterCombine_eq (rng := rng) (mdl := mdl) (s1 := s.marginal)
          (s2 := ⟨rng.nth k (us.length + 1) ⟨t + 1, by omega⟩, fun _ => dummy, fun _ => 0, us[t], 0⟩) hr rfl
          (funext hlw).symm
      refine ⟨h7.trans (congrArg some h8), fun i => ?_, 0, ?_⟩
      · exact (hfin _ _ _).isLog.add trivial
      · exact (hfin _ _ _).add trivial
  congr 1
  refine List.ext_getElem? fun t => ?_
  rcases Nat.lt_or_ge t (us.length + 1) with h5 | h5
  · rw [(key t (by omega)).1, List.getElem?_map, List.getElem?_range h5]
    rfl
  · rw [List.getElem?_eq_none (by omega), List.getElem?_eq_none (by simpa using h5)]

/-- C72: if the log potential does not depend on the previous state (and is finite), then the marginal particle
filter goes through the same particles, log-weights and log normalising constants as the particle filter, for every
key; hence its evidence is unbiased whenever that of the particle filter is (C53). Missing: for other potentials its
evidence is biased, see `marginal_filter_biased`. -/
theorem marginal_filter_unbiased_partial [NeZero N] [MeasurableSpace K] [MeasurableSpace X] {P : Measure K} (rng : Rng K)
    (mdl : FKModel K X Inp) (dummy : X) {pf : Platform} {R : Resampler K N X}
    (hR : R = multinomial rng pf ∨ R = systematic rng pf ∨ R = killing rng pf)
    (hG : ∀ x₁ x₂ x' u, mdl.logPotential x₁ x' u = mdl.logPotential x₂ x' u)
    (hfin : ∀ x x' u, (mdl.logPotential x x' u).IsFin) (u0 : Inp) (us : List Inp) :
    ∃ S : K → ℕ → PFState K X Inp N,
      (∀ k, (filter rng.toPrng (particleFilter rng.toPrng mdl dummy N R) (u0 :: us) false (some k)).result =
        .ok ((List.range (us.length + 1)).map fun t => .ok (S k t))) ∧
      (∀ k, (filter rng.toPrng (marginalParticleFilter rng.toPrng mdl dummy N R) (u0 :: us) false (some k)).result =
        .ok ((List.range (us.length + 1)).map fun t => .ok ⟨(S k t).key, (S k t).particles, (S k t).logWeights,
          (S k t).modelInputs, (S k t).logZ⟩)) ∧
      (UnbiasedRun rng P mdl R dummy u0 us → ∀ t ≤ us.length, ∫⁻ k, ENNReal.ofReal (S k t).logZ.lik ∂P =
        fkExp (mdl.init P u0) ((us.take t).map (mdl.step P)) fun _ => 1) := by
  obtain ⟨I, hI⟩ : ∃ I : K → (Fin N → Fl) → Fin N → Fin N, Uses R I zeroLogits := by
    rcases hR with rfl | rfl | rfl
    · exact ⟨_, uses_multinomial rng pf⟩
    · exact ⟨_, uses_systematic rng pf⟩
    · exact ⟨_, uses_killing rng pf⟩
  refine ⟨fun k t => pfRun rng.toPrng mdl I zeroLogits u0 us k t, fun k => ?_, fun k =>
    marginal_run_eq rng.toPrng mdl dummy hI hG hfin u0 us k, fun h => ?_⟩
  · rw [filter_pf_eq hI dummy u0 us k]
  · obtain ⟨S, h1, h2⟩ := h.evidence
    intro t ht
    rw [← h2 t ht]
    refine lintegral_congr fun k => ?_
    have h3 := (h1 k).symm.trans (filter_pf_eq hI dummy u0 us k)
    have h4 : (List.range (us.length + 1)).map (fun t => (.ok (S k t) : Except Err (PFState K X Inp N))) =
        (List.range (us.length + 1)).map fun t => .ok (pfRun rng.toPrng mdl I zeroLogits u0 us k t) := by
      injection h3 with h5 h6
      exact Except.ok.inj h6
    have h5 := congrArg (fun l => l[t]?) h4
    simp only [List.getElem?_map, List.getElem?_range (show t < us.length + 1 by omega), Option.map_some] at h5
    rw [Except.ok.inj (Option.some.inj h5)]

/-- A fair coin that never changes; the potential is one if the coin is the same as before. -/
def frozenCoin (rng : Rng K) : FKModel K Bool Unit where
  initSample k _ := coin rng k
  propagate _ x _ := x
  logPotential x x' _ := if x = x' then 0 else Fl.ninf

section

variable [MeasurableSpace K] {rng : Rng K} {P : Measure K} (h : IdealRng rng P)

include h

/-- The evidence of the frozen coin is one. -/
theorem frozenCoin_evidence : fkExp ((frozenCoin rng).init P ()) [(frozenCoin rng).step P ()] (fun _ => 1) = 1 := by
  have := h.prob
  have h1 : ∀ x, fkPathExp [(frozenCoin rng).step P ()] (fun _ => 1) x = 1 := by
    intro x
    simp only [fkPathExp, FKModel.step, mul_one]
    change ∫⁻ x' : Bool, _ ∂(P.map fun _ => x) = _
    rw [lintegral_map (measurable_of_finite _) measurable_const]
    simp [frozenCoin, Fl.lik]
  simp only [fkExp, h1]
  rw [lintegral_const, one_mul]
  change (P.map (coin rng)) univ = _
  rw [Measure.map_apply (measurable_coin h) MeasurableSet.univ, preimage_univ, measure_univ]

/-- C72 is false of the code: with two particles the evidence of one step of the frozen coin is `1`,
but the expectation of the estimate is `3 / 4`, for every resampling function that returns equal weights. -/
theorem marginal_filter_biased {R : Resampler K 2 Bool} {I : K → (Fin 2 → Fl) → Fin 2 → Fin 2}
    (hR : Uses R I zeroLogits) (dummy : Bool) :
    ∃ S : K → ℕ → MPFState K Bool Unit 2,
      (∀ k, (filter rng.toPrng (marginalParticleFilter rng.toPrng (frozenCoin rng) dummy 2 R)
        [(), ()] false (some k)).result = .ok [.ok (S k 0), .ok (S k 1)]) ∧
      ∫⁻ k, ENNReal.ofReal (S k 1).logZ.lik ∂P = 3 / 4 ∧
      fkExp ((frozenCoin rng).init P ()) [(frozenCoin rng).step P ()] (fun _ => 1) = 1 := by
  have := h.prob
  have hrun : ∀ k, ∃ s0 s1 : MPFState K Bool Unit 2,
      (filter rng.toPrng (marginalParticleFilter rng.toPrng (frozenCoin rng) dummy 2 R)
        [(), ()] false (some k)).result = .ok [.ok s0, .ok s1] ∧
      s1.logZ.lik = if coin rng (rng.nth (rng.nth k 2 0) 2 0) = coin rng (rng.nth (rng.nth k 2 0) 2 1) then 1
        else 1 / 2 := by
    intro k
    obtain ⟨states, h1, h2, h3, h4⟩ := marginal_run rng.toPrng (frozenCoin rng) dummy R () [()] k
    have h5 : marginalInitPrepare rng.toPrng (frozenCoin rng) 2 () (some (rng.nth k 2 0)) =
        .ok ⟨rng.nth k 2 0, fun i => coin rng (rng.nth (rng.nth k 2 0) 2 i), fun _ => 0, (), 0⟩ := by
      unfold marginalInitPrepare
      simp only
      rw [logsumexp_zero, log_natCast, Fl.fin_sub, sub_self]
      rfl
    have h6 : states[0]? = some (.ok ⟨rng.nth k 2 0, fun i => coin rng (rng.nth (rng.nth k 2 0) 2 i), fun _ => 0, (), 0⟩) :=
      h3.trans (congrArg some h5)
    have h7 := h4 0 (by simp) _ h6
    obtain ⟨s, hs⟩ : ∃ s : MPFState K Bool Unit 2, s = ⟨rng.nth k 2 0, fun i => coin rng (rng.nth (rng.nth k 2 0) 2 i),
      fun _ => 0, (), 0⟩ := ⟨_, rfl⟩
    rw [← hs] at h6 h7
    obtain ⟨x, hx⟩ : ∃ x : Fin 2 → Bool, x = fun i => coin rng (rng.nth (rng.nth k 2 0) 2 i) := ⟨_, rfl⟩
    have hsx : s.particles = x := by rw [hs, hx]
    have hsw : s.logWeights = fun _ => 0 := by rw [hs]
    have hsz : s.logZ = 0 := by rw [hs]
    have hr := hR (rng.nth s.key 3 0) s.logWeights s.particles
    generalize I (rng.nth s.key 3 0) s.logWeights = J at hr
    have hl : ∀ i, (Fl.logsumexp fun j => (frozenCoin rng).logPotential (s.particles j)
        (s.particles (J i)) () + (s.logWeights j - Fl.logsumexp s.logWeights)) =
        if x 0 = x 1 then 0 else Fl.log (Fl.fin (1 / 2)) := by
      intro i
      have h8 : IsLogits s.logWeights := by rw [hsw]; exact isLogits_zero
      rw [mixture_weight h8 fun j => by
        change (if s.particles j = s.particles (J i) then (0 : Fl) else Fl.ninf).IsLog
        split_ifs <;> trivial]
      have h9 : ∀ j, nw s.logWeights j * ((frozenCoin rng).logPotential (s.particles j) (s.particles (J i)) ()).lik =
          2⁻¹ * if x j = x (J i) then 1 else 0 := by
        intro j
        rw [hsw, nw_zero, hsx]
        congr 1
        change (if x j = x (J i) then (0 : Fl) else Fl.ninf).lik = _
        split_ifs <;> simp [Fl.lik]
      simp only [h9]
      rw [Fin.sum_univ_two]
      have hJ : J i = 0 ∨ J i = 1 := by omega
      by_cases hx01 : x 0 = x 1
      · rw [if_pos hx01]
        rcases hJ with hJ | hJ <;> rw [hJ] <;> simp [hx01]
        · norm_num [Fl.log]; rfl
        · norm_num [Fl.log]; rfl
      · rw [if_neg hx01]
        rcases hJ with hJ | hJ <;> rw [hJ] <;> simp [hx01, Ne.symm hx01]
    have h10 := marginalFilterCombine_eq (mdl := frozenCoin rng) (s2 := ⟨rng.nth k 2 1, fun _ => dummy, fun _ => 0, (), 0⟩)
      hr rfl (funext hl).symm
    obtain ⟨s', hs'⟩ : ∃ s', s' = MPFState.mk (rng.nth k 2 1)
      (fun i : Fin 2 => (frozenCoin rng).propagate (rng.nth s.key (2 + 1) i.succ) (s.particles (J i)) ())
      (fun _ => if x 0 = x 1 then 0 else Fl.log (Fl.fin (1 / 2))) ()
      (Fl.logsumexp (fun _ : Fin 2 => if x 0 = x 1 then 0 else Fl.log (Fl.fin (1 / 2))) -
        Fl.logsumexp (fun _ : Fin 2 => 0) + s.logZ) := ⟨_, rfl⟩
    have h11 : states = [.ok s, .ok s'] := by
      rw [hs']
      refine List.ext_getElem? fun t => ?_
      match t with
      | 0 => exact h6
      | 1 => exact h7.trans (congrArg some h10)
      | t + 2 => rw [List.getElem?_eq_none (by simp [h2])]; rfl
    refine ⟨s, s', by rw [h1, h11], ?_⟩
    rw [hs']
    dsimp only
    have hc0 : coin rng (rng.nth (rng.nth k 2 0) 2 0) = x 0 := by rw [hx]
    have hc1 : coin rng (rng.nth (rng.nth k 2 0) 2 1) = x 1 := by rw [hx]
    rw [hsz, add_zero, logsumexp_zero, hc0, hc1]
    split_ifs with hx01
    · rw [logsumexp_zero]
      simp [Fl.lik]
    · rw [Fl.log_fin _ (by norm_num), logsumexp_const, Fl.fin_sub, add_sub_cancel_right, Fl.lik,
        Real.exp_log (by norm_num)]
  choose s0 s1 h1 h2 using hrun
  refine ⟨fun k t => if t = 0 then s0 k else s1 k, h1, ?_, frozenCoin_evidence h⟩
  simp only [one_ne_zero, if_false, h2]
  have hc := measurable_coin h
  obtain ⟨F, hF⟩ : ∃ F : K × K → ℝ≥0∞, F = fun q => ENNReal.ofReal
    (if coin rng q.1 = coin rng q.2 then 1 else 1 / 2) := ⟨_, rfl⟩
  have hFm : Measurable F := by
    have h3 : Measurable fun q : Bool × Bool => ENNReal.ofReal (if q.1 = q.2 then 1 else 1 / 2) := measurable_of_finite _
    rw [hF]
    exact h3.comp ((hc.comp measurable_fst).prodMk (hc.comp measurable_snd))
  have h3 := (h.measurePreserving_nth 2 0).lintegral_comp (f := fun k => F (rng.nth k 2 0, rng.nth k 2 1))
    (hFm.comp ((h.measurable_nth 2 0).prodMk (h.measurable_nth 2 1)))
  have h4 := h.lintegral_split_two hFm
  rw [h4, hF] at h3
  rw [h3]
  have e1 : (2⁻¹ : ℝ≥0∞) = ENNReal.ofReal (1 / 2) := by
    rw [one_div, ENNReal.ofReal_inv_of_pos (by norm_num)]
    simp
  have h5 : ∀ x : Bool, ∫⁻ k, ENNReal.ofReal (if x = coin rng k then 1 else 1 / 2) ∂P = 3 / 4 := by
    intro x
    have h6 : ∀ k, ENNReal.ofReal (if x = coin rng k then 1 else 1 / 2) =
        2⁻¹ + 2⁻¹ * (if x = coin rng k then 1 else 0 : ℝ≥0∞) := by
      intro k
      split_ifs
      · rw [mul_one, ENNReal.inv_two_add_inv_two, ENNReal.ofReal_one]
      · rw [mul_zero, add_zero, e1]
    have hm : Measurable fun k => (if x = coin rng k then 1 else 0 : ℝ≥0∞) := by
      have h7 : Measurable fun y : Bool => (if x = y then 1 else 0 : ℝ≥0∞) := measurable_of_finite _
      exact h7.comp hc
    simp only [h6]
    rw [lintegral_add_left measurable_const, lintegral_const, measure_univ, mul_one, lintegral_const_mul _ hm, coin_law h,
      e1, ← ENNReal.ofReal_mul (by norm_num), ← ENNReal.ofReal_add (by norm_num) (by norm_num)]
    rw [show (1 / 2 + 1 / 2 * (1 / 2) : ℝ) = 3 / 4 by norm_num, ENNReal.ofReal_div_of_pos (by norm_num)]
    simp
  simp only [h5]
  rw [lintegral_const, measure_univ, mul_one]

end

/-- Ideal generators and suitable resampling functions exist. -/
example : ∃ rng : Rng Key, IdealRng rng keyLaw ∧
    Uses (X := Bool) (systematic (N := 2) rng .cpu) (fun k l => systematicIdx rng .cpu l 2 k) zeroLogits :=
  let ⟨rng, h, _⟩ := exists_ideal_prefix
  ⟨rng, h, uses_systematic rng .cpu⟩

/-- A random walk whose log potential depends on the new state only. -/
def walkModel (rng : Rng K) : FKModel K ℝ ℝ where
  initSample k _ := rng.uniform0 k
  propagate k x _ := x + rng.uniform0 k
  logPotential _ x' u := Fl.fin (-(x' - u) ^ 2)

/-- The random walk meets the hypotheses of `marginal_filter_unbiased_partial`. -/
example : ∃ rng : Rng Key, (∀ x₁ x₂ x' u, (walkModel rng).logPotential x₁ x' u = (walkModel rng).logPotential x₂ x' u) ∧
    (∀ x x' u, ((walkModel rng).logPotential x x' u).IsFin) ∧
    UnbiasedRun (N := 5) rng keyLaw (walkModel rng) (systematic rng .cpu) 0 0 [1, 2, 3] := by
  obtain ⟨rng, h, h1⟩ := exists_ideal_prefix
  refine ⟨rng, fun _ _ _ _ => rfl, fun _ _ _ => trivial, systematic_filter_unbiased h (.inr h1) .cpu
    h.uniform0.measurable _ (fun u _ => ⟨?_, ?_, fun x x' => ?_⟩) _⟩
  · exact measurable_snd.add (h.uniform0.measurable.comp measurable_fst)
  · exact Fl.measurable_fin.comp ((measurable_snd.sub_const u).pow_const 2).neg
  · exact (trivial : (Fl.fin (-(x' - u) ^ 2)).IsLog)

end

end Cuthbert.SMC
