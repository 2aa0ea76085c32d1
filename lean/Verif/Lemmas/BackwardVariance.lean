import Verif.Lemmas.SMCConsistency
import Verif.Props.BackwardSampling

/-!
# Second moments of backward sampling after a run of the particle filter
-/

namespace Cuthbert.SMC
open MeasureTheory Set Resampling Spec
open scoped ENNReal

noncomputable section

variable {K X Inp : Type} {N n : ℕ}

/-- The mean squared error of an unbiased estimate. -/
theorem mse_of_second {Ω : Type*} [MeasurableSpace Ω] {P : Measure Ω} [IsProbabilityMeasure P] {Y : Ω → ℝ≥0∞}
    (hY : Measurable Y) (hYt : ∀ k, Y k ≠ ⊤) {μ ε : ℝ≥0∞} (hμ : μ ≠ ⊤) (h1 : ∫⁻ k, Y k ∂P = μ)
    (h2 : ∫⁻ k, Y k ^ 2 ∂P ≤ μ ^ 2 + ε) :
    ∫⁻ k, ENNReal.ofReal (((Y k).toReal - μ.toReal) ^ 2) ∂P ≤ ε := by
  have h6 : (∫⁻ k, ENNReal.ofReal (((Y k).toReal - μ.toReal) ^ 2) ∂P) + 2 * μ * μ = (∫⁻ k, Y k ^ 2 ∂P) + μ ^ 2 := by
    calc _ = (∫⁻ k, ENNReal.ofReal (((Y k).toReal - μ.toReal) ^ 2) ∂P) + ∫⁻ k, 2 * μ * Y k ∂P := by
          rw [lintegral_const_mul _ hY, h1]
      _ = _ := by
          rw [← lintegral_add_right _ (hY.const_mul _)]
          simp only [ofReal_sub_sq (hYt _) hμ]
          rw [lintegral_add_right _ measurable_const, lintegral_const, measure_univ, mul_one]
  refine ENNReal.le_of_add_le_add_right (a := 2 * μ * μ)
    (ENNReal.mul_ne_top (ENNReal.mul_ne_top (by norm_num) hμ) hμ) ?_
  rw [h6]
  calc _ ≤ μ ^ 2 + ε + μ ^ 2 := by gcongr
    _ = _ := by ring

section bound

variable [MeasurableSpace K] [NeZero N] {P : Measure K} {rng : Rng K}

theorem sum_backLaw (h : IdealRng rng P) (ld : X → X → Fl) (c : Core X N) (x' : X) :
    ∑ j, backLaw P rng ld c x' j = 1 := by
  have := h.prob
  unfold backLaw
  rw [← measure_biUnion_finset]
  · have h1 : (⋃ j ∈ Finset.univ, {k | rng.categorical k N (exactLogWeights c.1 x' c.2.1 ld) = j}) = univ := by
      ext k
      simp
    rw [h1, measure_univ]
  · intro i _ j _ hij
    rw [Function.onFun, Set.disjoint_left]
    intro k hk hk'
    exact hij (hk.symm.trans hk')
  · exact fun j _ => measurableSet_categorical h _ j

theorem backExp_const (h : IdealRng rng P) (ld : ℕ → X → X → Fl) (H : ℕ → Core X N) (a : ℝ≥0∞) :
    ∀ (t : ℕ) (i : Fin N), backExp P rng ld H t i (fun _ => a) = a
  | 0, _ => rfl
  | t + 1, i => by
    rw [backExp]
    simp only [backExp_const h ld H a t]
    rw [← Finset.sum_mul, sum_backLaw h, one_mul]

omit [NeZero N] in
theorem backExp_mono [NeZero N] (ld : ℕ → X → X → Fl) (H : ℕ → Core X N) :
    ∀ (t : ℕ) (i : Fin N) (ψ ψ' : (ℕ → X) → ℝ≥0∞), (∀ p, ψ p ≤ ψ' p) →
      backExp P rng ld H t i ψ ≤ backExp P rng ld H t i ψ'
  | 0, _, _, _, h => h _
  | t + 1, i, ψ, ψ', h => by
    rw [backExp, backExp]
    refine Finset.sum_le_sum fun j _ => mul_le_mul_right ?_ _
    exact backExp_mono ld H t j _ _ fun p => h _

theorem backExp_add (ld : ℕ → X → X → Fl) (H : ℕ → Core X N) :
    ∀ (t : ℕ) (i : Fin N) (ψ ψ' : (ℕ → X) → ℝ≥0∞),
      backExp P rng ld H t i (fun p => ψ p + ψ' p) = backExp P rng ld H t i ψ + backExp P rng ld H t i ψ'
  | 0, _, _, _ => rfl
  | t + 1, i, ψ, ψ' => by
    simp only [backExp, backExp_add ld H t, mul_add, Finset.sum_add_distrib]

theorem backExp_le (h : IdealRng rng P) (ld : ℕ → X → X → Fl) (H : ℕ → Core X N) {ψ : (ℕ → X) → ℝ≥0∞} {c : ℝ≥0∞}
    (hψ : ∀ p, ψ p ≤ c) (t : ℕ) (i : Fin N) : backExp P rng ld H t i ψ ≤ c :=
  (backExp_mono ld H t i ψ (fun _ => c) hψ).trans_eq (backExp_const h ld H c t i)

end bound

section step

variable [MeasurableSpace K] [MeasurableSpace X] [NeZero N] {P : Measure K} {rng : Rng K}
  {mdl : FKModel K X Inp} {I : K → (Fin N → Fl) → Fin N → Fin N}
  {L : K → (Fin N → Fl) → Fin N → Fl} {u : Inp} {κ : ℝ≥0∞}

omit [MeasurableSpace K] [MeasurableSpace X] [NeZero N] in
theorem pathCont_le [MeasurableSpace K] {P : Measure K} [IsProbabilityMeasure P] {B c : ℝ≥0∞} {ψ : (ℕ → X) → ℝ≥0∞} (hψ : ∀ p, ψ p ≤ c) :
    ∀ (us : List Inp) (t : ℕ), (∀ u ∈ us, ∀ x x', ENNReal.ofReal (mdl.logPotential x x' u).lik ≤ B) →
    ∀ p, pathCont P mdl us t ψ p ≤ B ^ us.length * c
  | [], _, _, p => by simpa [pathCont] using hψ p
  | u :: us, t, hB, p => by
    rw [pathCont, pathQ, List.length_cons, pow_succ', mul_assoc]
    exact fkQ_le (hB u (by simp)) (fun x => pathCont_le hψ us (t + 1) (fun u' h' => hB u' (by simp [h'])) _) _

/-- One step. -/
theorem lintegral_sq_histEst_step (h : IdealRng rng P) (hR : UnbiasedWeights P I L)
    (hK : Concentrates P I L κ) (hu : mdl.Regular u) {B c : ℝ≥0∞}
    (hB : ∀ x x', ENNReal.ofReal (mdl.logPotential x x' u).lik ≤ B) {ld : ℕ → X → X → Fl} {t : ℕ}
    (hld : BackwardDensity (mdl.step P u) (ld t)) {ψ : (ℕ → X) → ℝ≥0∞} (hψ : Measurable ψ) (hψc : ∀ p, ψ p ≤ c)
    {H : ℕ → Core X N} (hH : Good (RevivesDead L) (H t)) :
    ∫⁻ ks, histEst P rng ld (Function.update H (t + 1) (coreStep mdl I L u ks (H t))) (t + 1) ψ ^ 2
        ∂(Measure.pi fun _ => P) ≤
      histEst P rng ld H t (pathQ P mdl u t ψ) ^ 2 + 2 * κ * (ENNReal.ofReal (H t).2.2.lik * (B * c)) ^ 2 := by
  have := h.prob
  obtain ⟨Ψ, hΨ⟩ : ∃ Ψ : X → ℝ≥0∞, Ψ = fun x' => ∑ j, backLaw P rng (ld t) (H t) x' j *
      backExp P rng ld H t j fun p => ψ (splice t p x') := ⟨_, rfl⟩
  have hsec : ∀ p, Measurable fun x' => ψ (splice t p x') := fun p =>
    hψ.comp ((measurable_splice t).comp (measurable_const.prodMk measurable_id))
  have hBm : ∀ j, Measurable fun x' => backExp P rng ld H t j fun p => ψ (splice t p x') := fun j =>
    measurable_backExp_fixed t j (fun x' p => ψ (splice t p x')) hsec
  have hΨm : Measurable Ψ := by
    rw [hΨ]
    refine Finset.measurable_sum _ fun j _ => ?_
    exact ((measurable_backLaw h hld.measurable j).comp (measurable_const.prodMk measurable_id)).mul (hBm j)
  have hΨc : ∀ x, Ψ x ≤ c := by
    intro x
    rw [hΨ]
    calc _ ≤ ∑ j, backLaw P rng (ld t) (H t) x j * c :=
          Finset.sum_le_sum fun j _ => mul_le_mul_right (backExp_le h ld H (fun p => hψc _) t j) _
      _ = c := by rw [← Finset.sum_mul, sum_backLaw h, one_mul]
  have h1 : ∀ ks, histEst P rng ld (Function.update H (t + 1) (coreStep mdl I L u ks (H t))) (t + 1) ψ =
      est Ψ (coreStep mdl I L u ks (H t)) := by
    intro ks
    rw [histEst, est, Function.update_self]
    congr 1
    refine Finset.sum_congr rfl fun i _ => ?_
    congr 1
    rw [backExp, Function.update_self, Function.update_of_ne (by omega), hΨ]
    refine Finset.sum_congr rfl fun j _ => ?_
    congr 1
    exact backExp_congr t j _ _ (fun s hs => Function.update_of_ne (by omega) _ _) fun p _ => rfl
  have h2 := lintegral_histEst_step h hR hu hld hψ hH
  simp only [h1] at h2 ⊢
  rw [lintegral_coreStep hR hu hΨm hH] at h2
  rw [← h2]
  exact lintegral_sq_coreStep hR hK hu hB hΨm hΨc hH

end step

section run

variable [MeasurableSpace K] [MeasurableSpace X] {P : Measure K} {rng : Rng K}
  {mdl : FKModel K X Inp} {I : K → (Fin N → Fl) → Fin N → Fin N} {L : K → (Fin N → Fl) → Fin N → Fl}
  {κ : ℝ≥0∞} [NeZero N] (h : IdealRng rng P)

include h

/-- Several steps. -/
theorem lintegral_sq_histAt (hR : UnbiasedWeights P I L) (hK : Concentrates P I L κ) {B c : ℝ≥0∞}
    {ld : ℕ → X → X → Fl} {ψ : (ℕ → X) → ℝ≥0∞} (hψ : Measurable ψ) (hψc : ∀ p, ψ p ≤ c) :
    ∀ (us : List Inp) (t : ℕ) (H : ℕ → Core X N), (∀ s < t, Measurable fun q : X × X => ld s q.1 q.2) →
    (∀ u ∈ us, mdl.Regular u) → (∀ u ∈ us, ∀ x x', ENNReal.ofReal (mdl.logPotential x x' u).lik ≤ B) →
    (∀ s (hs : s < us.length), BackwardDensity (mdl.step P us[s]) (ld (t + s))) →
    (RevivesDead L ∨ ∀ u ∈ us, ∀ x x', (mdl.logPotential x x' u).IsFin) → Good (RevivesDead L) (H t) →
    ∫⁻ k, ∫⁻ keys, histEst P rng ld (histAt rng.toPrng mdl I L us t k H keys) (t + us.length) ψ ^ 2
        ∂(Measure.pi fun _ => P) ∂P ≤ histEst P rng ld H t (pathCont P mdl us t ψ) ^ 2 +
      2 * κ * us.length * (ENNReal.ofReal (H t).2.2.lik * (B ^ us.length * c)) ^ 2
  | [], t, H, _, _, _, _, _, _ => by
    have := h.prob
    simp [histAt, pathCont]
  | u :: us, t, H, hm, hu, hB, hld, hd, hH => by
    have := h.prob
    have hur := hu u (by simp)
    have hu' : ∀ u' ∈ us, mdl.Regular u' := fun u' h' => hu u' (by simp [h'])
    have hB' : ∀ u' ∈ us, ∀ x x', ENNReal.ofReal (mdl.logPotential x x' u').lik ≤ B :=
      fun u' h' => hB u' (by simp [h'])
    have hd' : RevivesDead L ∨ ∀ u ∈ us, ∀ x x', (mdl.logPotential x x' u).IsFin :=
      hd.imp_right fun h1 u' h' => h1 u' (by simp [h'])
    have hd0 : RevivesDead L ∨ ∀ x x', (mdl.logPotential x x' u).IsFin :=
      hd.imp_right fun h1 => h1 u (by simp)
    have hld0 : BackwardDensity (mdl.step P u) (ld t) := hld 0 (by simp)
    have hld' : ∀ s (hs : s < us.length), BackwardDensity (mdl.step P us[s]) (ld (t + 1 + s)) := fun s hs => by
      have := hld (s + 1) (by simpa using hs)
      rw [show t + 1 + s = t + (s + 1) by omega]
      exact this
    have hm' : ∀ s < t + 1, Measurable fun q : X × X => ld s q.1 q.2 := fun s hs => by
      rcases Nat.lt_succ_iff_lt_or_eq.mp hs with h1 | h1
      · exact hm s h1
      · rw [h1]
        exact hld0.measurable
    have hmT : ∀ s < t + 1 + us.length, Measurable fun q : X × X => ld s q.1 q.2 := fun s hs => by
      rcases Nat.lt_or_ge s (t + 1) with h1 | h1
      · exact hm' s h1
      · obtain ⟨r, rfl⟩ := Nat.exists_eq_add_of_le h1
        exact (hld' r (by omega)).measurable
    simp only [histAt, pathCont]
    have hl : ∀ k, IsLogits (L (rng.nth k (N + 1) 0) (H t).2.1) := fun k => hH.isLogits_L hR.isLogits _
    have h1 : ∀ k, ∫⁻ keys : Fin (us.length + 1) → K, histEst P rng ld (histAt rng.toPrng mdl I L us (t + 1) (keys 0)
          (Function.update H (t + 1) (coreStep mdl I L u (rng.nth k (N + 1)) (H t))) (Fin.tail keys))
          (t + (u :: us).length) ψ ^ 2 ∂(Measure.pi fun _ => P) ≤
        histEst P rng ld (Function.update H (t + 1) (coreStep mdl I L u (rng.nth k (N + 1)) (H t))) (t + 1)
          (pathCont P mdl us (t + 1) ψ) ^ 2 +
          2 * κ * us.length * (ENNReal.ofReal (H t).2.2.lik * (B ^ (us.length + 1) * c)) ^ 2 := by
      intro k
      have hg0 : Good (RevivesDead L) (coreStep mdl I L u (rng.nth k (N + 1)) (H t)) :=
        Good.step hH.logZ hur.isLog _ (hl k) hd0
      have hg : Good (RevivesDead L) (Function.update H (t + 1) (coreStep mdl I L u (rng.nth k (N + 1)) (H t)) (t + 1)) := by
        rw [Function.update_self]
        exact hg0
      have ih := lintegral_sq_histAt hR hK hψ hψc us (t + 1) _ hm' hu' hB' hld' hd' hg
      rw [lintegral_pi_cons P]
      · simp only [Fin.cons_zero, Fin.tail_cons, List.length_cons]
        rw [show t + (us.length + 1) = t + 1 + us.length by omega]
        refine ih.trans (add_le_add le_rfl ?_)
        rw [Function.update_self]
        have hz := logZ_step_le hur.isLog (hB u (by simp)) (rng.nth k (N + 1)) hH.logZ (hl k) hg0
        calc _ ≤ 2 * κ * us.length * (ENNReal.ofReal (H t).2.2.lik * B * (B ^ us.length * c)) ^ 2 := by gcongr
          _ = _ := by ring
      · have h2 : Measurable fun keys : Fin (us.length + 1) → K => Fin.tail keys :=
          measurable_pi_iff.mpr fun i => measurable_pi_apply i.succ
        rw [List.length_cons, show t + (us.length + 1) = t + 1 + us.length by omega]
        exact ((measurable_histEst h hmT hψ).comp ((measurable_histAt h hR us (t + 1) hu').comp
          ((measurable_pi_apply 0).prodMk (measurable_const.prodMk h2)))).pow_const 2
    have hc := measurable_pathCont (P := P) hψ us (t + 1) hu'
    have h3 : Measurable fun ks : Fin (N + 1) → K => histEst P rng ld
        (Function.update H (t + 1) (coreStep mdl I L u ks (H t))) (t + 1) (pathCont P mdl us (t + 1) ψ) ^ 2 := by
      refine ((measurable_histEst h hm' hc).comp ?_).pow_const 2
      refine measurable_pi_iff.mpr fun s => ?_
      by_cases hs : s = t + 1
      · subst hs
        simp only [Function.update_self]
        exact (measurable_coreStep hR hur).comp (measurable_id.prodMk measurable_const)
      · simp only [Function.update_of_ne hs]
        exact measurable_const
    refine (lintegral_mono h1).trans ?_
    rw [lintegral_add_right _ measurable_const, lintegral_const, measure_univ, mul_one,
      (h.split (N + 1)).lintegral_comp h3]
    have h4 := lintegral_sq_histEst_step h hR hK hur (hB u (by simp)) hld0 hc (pathCont_le (P := P) hψc us (t + 1) hB') hH
    refine (add_le_add h4 le_rfl).trans_eq ?_
    rw [List.length_cons]
    push_cast
    ring

/-- The whole run. -/
theorem lintegral_sq_histEst_run (hR : UnbiasedWeights P I L) (hK : Concentrates P I L κ)
    (hind : IndepSplit rng.toPrng P) {u0 : Inp}
    (h0 : Measurable fun k => mdl.initSample k u0) {ld : ℕ → X → X → Fl} {B c : ℝ≥0∞} {ψ : (ℕ → X) → ℝ≥0∞}
    (hψ : Measurable ψ) (hψc : ∀ p, ψ p ≤ c) (us : List Inp) (hu : ∀ u ∈ us, mdl.Regular u)
    (hB : ∀ u ∈ us, ∀ x x', ENNReal.ofReal (mdl.logPotential x x' u).lik ≤ B)
    (hld : ∀ s (hs : s < us.length), BackwardDensity (mdl.step P us[s]) (ld s))
    (hd : RevivesDead L ∨ ∀ u ∈ us, ∀ x x', (mdl.logPotential x x' u).IsFin) :
    Measurable (fun k => histEst P rng ld (fun t => (pfRun rng.toPrng mdl I L u0 us k t).core) us.length ψ) ∧
    ∫⁻ k, histEst P rng ld (fun t => (pfRun rng.toPrng mdl I L u0 us k t).core) us.length ψ ^ 2 ∂P ≤
      fkExp (mdl.init P u0) (us.map (mdl.step P)) ψ ^ 2 +
        ((N : ℝ≥0∞)⁻¹ + 2 * κ * us.length) * (B ^ us.length * c) ^ 2 := by
  have := h.prob
  have hgood : ∀ a : Fin N → K, Good (RevivesDead L) (coreInit mdl u0 a) := fun a => good_coreInit u0 a
  have hmT : ∀ s < us.length, Measurable fun q : X × X => ld s q.1 q.2 := fun s hs => (hld s hs).measurable
  -- the run as a function of its keys
  have h1 : ∀ k, histEst P rng ld (fun t => (pfRun rng.toPrng mdl I L u0 us k t).core) us.length ψ =
      histEst P rng ld (histAt rng.toPrng mdl I L us 0 (rng.nth k (us.length + 1) 0)
        (fun _ => coreInit mdl u0 (rng.nth (rng.nth k (us.length + 1) 0) N))
        (Fin.tail (rng.nth k (us.length + 1)))) us.length ψ := by
    intro k
    have h2 : ∀ t ≤ us.length, histAt rng.toPrng mdl I L us 0 (rng.nth k (us.length + 1) 0)
        (fun _ => coreInit mdl u0 (rng.nth (rng.nth k (us.length + 1) 0) N))
        (Fin.tail (rng.nth k (us.length + 1))) t = (pfRun rng.toPrng mdl I L u0 us k t).core := by
      intro t ht
      have h3 := histAt_pfAt (rng := rng.toPrng) (mdl := mdl) (I := I) (L := L) us 0
        (pfInit rng.toPrng mdl N u0 (rng.nth k (us.length + 1) 0))
        (fun _ => coreInit mdl u0 (rng.nth (rng.nth k (us.length + 1) 0) N))
        (Fin.tail (rng.nth k (us.length + 1))) t rfl ht
      rw [Nat.zero_add] at h3
      exact h3
    rw [histEst, histEst, h2 _ le_rfl]
    congr 1
    refine Finset.sum_congr rfl fun i _ => ?_
    congr 1
    exact backExp_congr _ i _ _ (fun s hs => (h2 s hs).symm) fun p _ => rfl
  simp only [h1]
  have h2 : Measurable fun keys : Fin (us.length + 1) → K => Fin.tail keys :=
    measurable_pi_iff.mpr fun i => measurable_pi_apply i.succ
  have h3 : Measurable fun keys : Fin (us.length + 1) → K =>
      (fun _ => coreInit mdl u0 (rng.nth (keys 0) N) : ℕ → Core X N) :=
    measurable_pi_iff.mpr fun _ => (measurable_coreInit h0).comp ((measurable_nthAll h N).comp (measurable_pi_apply 0))
  have h4 : Measurable fun keys : Fin (us.length + 1) → K =>
      histEst P rng ld (histAt rng.toPrng mdl I L us 0 (keys 0) (fun _ => coreInit mdl u0 (rng.nth (keys 0) N))
        (Fin.tail keys)) us.length ψ :=
    (measurable_histEst h hmT hψ).comp ((measurable_histAt h hR us 0 hu).comp
      ((measurable_pi_apply 0).prodMk (h3.prodMk h2)))
  refine ⟨h4.comp (h.split (us.length + 1)).measurable, ?_⟩
  rw [(h.split (us.length + 1)).lintegral_comp (h4.pow_const 2), lintegral_pi_cons P (h4.pow_const 2)]
  simp only [Fin.cons_zero, Fin.tail_cons]
  -- the expectation over the initial particles
  have hinit : ∀ {f : (ℕ → X) → ℝ≥0∞} {c' : ℝ≥0∞}, Measurable f → (∀ p, f p ≤ c') →
      ∫⁻ a, histEst P rng ld (fun _ => (coreInit mdl u0 a : Core X N)) 0 f ^ 2 ∂(Measure.pi fun _ => P) ≤
        (∫⁻ x, f (fun _ => x) ∂mdl.init P u0) ^ 2 + (N : ℝ≥0∞)⁻¹ * c' ^ 2 := by
    intro f c' hf hfc
    have h5 : Measurable fun x : X => f fun _ => x := hf.comp (measurable_pi_iff.mpr fun _ => measurable_id)
    exact lintegral_sq_coreInit (N := N) h0 h5 fun x => hfc _
  have hfinal : ∫⁻ x, pathCont P mdl us 0 ψ (fun _ => x) ∂mdl.init P u0 = fkExp (mdl.init P u0) (us.map (mdl.step P)) ψ := by
    rw [fkExp]
    refine lintegral_congr fun x => ?_
    rw [pathCont_eq us 0 ψ (fun _ => x) hψ hu fun _ _ => rfl]
    refine fkPathExp_congr _ _ _ _ fun q hq => ?_
    congr 1
    funext s
    split_ifs with hs
    · rw [show s = 0 by omega, hq]
    · rfl
  rw [← hfinal]
  match us with
  | [] =>
    simp only [histAt, pathCont, List.length_nil, lintegral_const, measure_univ, mul_one]
    have h5 : ∫⁻ k, histEst P rng ld (fun _ => (coreInit mdl u0 (rng.nth k N) : Core X N)) 0 ψ ^ 2 ∂P =
        ∫⁻ a, histEst P rng ld (fun _ => (coreInit mdl u0 a : Core X N)) 0 ψ ^ 2 ∂(Measure.pi fun _ => P) := by
      refine (h.split N).lintegral_comp
        (f := fun a => histEst P rng ld (fun _ => (coreInit mdl u0 a : Core X N)) 0 ψ ^ 2) ?_
      exact ((measurable_histEst h (by simp) hψ).comp
        (measurable_pi_iff.mpr fun _ => measurable_coreInit h0)).pow_const 2
    rw [h5]
    refine (hinit hψ hψc).trans_eq ?_
    simp
  | u :: us =>
    have hur := hu u (by simp)
    have hu' : ∀ u' ∈ us, mdl.Regular u' := fun u' h' => hu u' (by simp [h'])
    have hB' : ∀ u' ∈ us, ∀ x x', ENNReal.ofReal (mdl.logPotential x x' u').lik ≤ B :=
      fun u' h' => hB u' (by simp [h'])
    have hd' : RevivesDead L ∨ ∀ u ∈ us, ∀ x x', (mdl.logPotential x x' u).IsFin :=
      hd.imp_right fun h1 u' h' => h1 u' (by simp [h'])
    have hd0 : RevivesDead L ∨ ∀ x x', (mdl.logPotential x x' u).IsFin :=
      hd.imp_right fun h1 => h1 u (by simp)
    have hld0 : BackwardDensity (mdl.step P u) (ld 0) := hld 0 (by simp)
    have hm1 : ∀ s < 1, Measurable fun q : X × X => ld s q.1 q.2 := fun s hs => by
      rw [show s = 0 by omega]
      exact hld0.measurable
    have hld' : ∀ s (hs : s < us.length), BackwardDensity (mdl.step P us[s]) (ld (1 + s)) := fun s hs => by
      have := hld (s + 1) (by simpa using hs)
      rw [show 1 + s = s + 1 by omega]
      exact this
    have hmT' : ∀ s < 1 + us.length, Measurable fun q : X × X => ld s q.1 q.2 := fun s hs =>
      hmT s (by simpa [add_comm] using hs)
    have hc := measurable_pathCont (P := P) hψ us 1 hu'
    have hcc := pathCont_le (P := P) hψc us 1 hB'
    have hl0 : ∀ k, ENNReal.ofReal (coreInit mdl u0 k : Core X N).2.2.lik = 1 := fun k => by
      simp [coreInit, Fl.zero_def, Fl.lik]
    have h5 : ∀ k, ∫⁻ keys : Fin (us.length + 1) → K, histEst P rng ld (histAt rng.toPrng mdl I L (u :: us) 0 k
          (fun _ => coreInit mdl u0 (rng.nth k N)) keys) (u :: us).length ψ ^ 2 ∂(Measure.pi fun _ => P) ≤
        histEst P rng ld (Function.update (fun _ => coreInit mdl u0 (rng.nth k N)) 1
          (coreStep mdl I L u (rng.nth k (N + 1)) (coreInit mdl u0 (rng.nth k N)))) 1 (pathCont P mdl us 1 ψ) ^ 2 +
          2 * κ * us.length * (B ^ (us.length + 1) * c) ^ 2 := by
      intro k
      have hg0 : Good (RevivesDead L) (coreStep mdl I L u (rng.nth k (N + 1)) (coreInit mdl u0 (rng.nth k N))) :=
        Good.step (hgood _).logZ hur.isLog _ ((hgood _).isLogits_L hR.isLogits _) hd0
      have hg : Good (RevivesDead L) (Function.update (fun _ => (coreInit mdl u0 (rng.nth k N) : Core X N)) 1
          (coreStep mdl I L u (rng.nth k (N + 1)) (coreInit mdl u0 (rng.nth k N))) 1) := by
        rw [Function.update_self]
        exact hg0
      have ih := lintegral_sq_histAt h hR hK hψ hψc us 1 _ hm1 hu' hB' hld' hd' hg
      rw [lintegral_pi_cons P]
      · simp only [histAt, Fin.cons_zero, Fin.tail_cons, List.length_cons, zero_add]
        rw [add_comm us.length 1]
        refine ih.trans (add_le_add le_rfl ?_)
        rw [Function.update_self]
        have hz := logZ_step_le hur.isLog (hB u (by simp)) (rng.nth k (N + 1)) (hgood _).logZ
          ((hgood (rng.nth k N)).isLogits_L hR.isLogits _) hg0
        rw [hl0, one_mul] at hz
        calc _ ≤ 2 * κ * us.length * (B * (B ^ us.length * c)) ^ 2 := by gcongr
          _ = _ := by ring
      · have h2 : Measurable fun keys : Fin (us.length + 1) → K => Fin.tail keys :=
          measurable_pi_iff.mpr fun i => measurable_pi_apply i.succ
        have e : (u :: us).length = 1 + us.length := by rw [List.length_cons, add_comm]
        simp only [histAt, e]
        exact ((measurable_histEst h hmT' hψ).comp ((measurable_histAt h hR us 1 hu').comp
          ((measurable_pi_apply 0).prodMk (measurable_const.prodMk h2)))).pow_const 2
    refine (lintegral_mono h5).trans ?_
    rw [lintegral_add_right _ measurable_const, lintegral_const, measure_univ, mul_one]
    have h6 : Measurable fun q : (Fin N → K) × (Fin (N + 1) → K) =>
        histEst P rng ld (Function.update (fun _ => coreInit mdl u0 q.1) 1
          (coreStep mdl I L u q.2 (coreInit mdl u0 q.1))) 1 (pathCont P mdl us 1 ψ) ^ 2 := by
      refine ((measurable_histEst h hm1 hc).comp ?_).pow_const 2
      refine measurable_pi_iff.mpr fun s => ?_
      have hci : Measurable fun q : (Fin N → K) × (Fin (N + 1) → K) => (coreInit mdl u0 q.1 : Core X N) :=
        (measurable_coreInit h0).comp measurable_fst
      by_cases hs : s = 1
      · subst hs
        simp only [Function.update_self]
        exact (measurable_coreStep hR hur).comp (measurable_snd.prodMk hci)
      · simp only [Function.update_of_ne hs]
        exact hci
    have h8 : ∫⁻ k, histEst P rng ld (Function.update (fun _ => coreInit mdl u0 (rng.nth k N)) 1
          (coreStep mdl I L u (rng.nth k (N + 1)) (coreInit mdl u0 (rng.nth k N)))) 1 (pathCont P mdl us 1 ψ) ^ 2 ∂P =
        ∫⁻ q, histEst P rng ld (Function.update (fun _ => coreInit mdl u0 q.1) 1
          (coreStep mdl I L u q.2 (coreInit mdl u0 q.1))) 1 (pathCont P mdl us 1 ψ) ^ 2
          ∂((Measure.pi fun _ : Fin N => P).prod (Measure.pi fun _ : Fin (N + 1) => P)) :=
      (hind N (N + 1) (by omega)).lintegral_comp h6
    rw [h8, lintegral_prod _ h6.aemeasurable]
    have h7 : ∀ a : Fin N → K, ∫⁻ ks, histEst P rng ld (Function.update (fun _ => coreInit mdl u0 a) 1
          (coreStep mdl I L u ks (coreInit mdl u0 a))) 1 (pathCont P mdl us 1 ψ) ^ 2 ∂(Measure.pi fun _ => P) ≤
        histEst P rng ld (fun _ => (coreInit mdl u0 a : Core X N)) 0 (pathCont P mdl (u :: us) 0 ψ) ^ 2 +
          2 * κ * (B * (B ^ us.length * c)) ^ 2 := fun a => by
      have := lintegral_sq_histEst_step h hR hK hur (hB u (by simp)) hld0 hc hcc
        (H := fun _ => (coreInit mdl u0 a : Core X N)) (hgood a)
      rw [hl0, one_mul] at this
      exact this
    have h9 : Measurable fun a : Fin N → K => histEst P rng ld (fun _ => (coreInit mdl u0 a : Core X N)) 0
        (pathCont P mdl (u :: us) 0 ψ) ^ 2 :=
      ((measurable_histEst h (by simp) (measurable_pathCont hψ (u :: us) 0 hu)).comp
        (measurable_pi_iff.mpr fun _ => measurable_coreInit h0)).pow_const 2
    refine (add_le_add (lintegral_mono h7) le_rfl).trans ?_
    rw [lintegral_add_right _ measurable_const, lintegral_const, measure_univ, mul_one]
    refine (add_le_add (add_le_add (hinit (measurable_pathCont hψ (u :: us) 0 hu)
      (pathCont_le (P := P) hψc (u :: us) 0 hB)) le_rfl) le_rfl).trans_eq ?_
    rw [List.length_cons]
    push_cast
    ring

end run

end

end Cuthbert.SMC
