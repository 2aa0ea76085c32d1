import Verif.Lemmas.BackwardError

/-!
# Properties: the smoother with exact backward sampling converges as the numbers of particles grow (C84)
-/

namespace Cuthbert.SMC
open MeasureTheory Set Resampling Spec Filter
open scoped ENNReal Topology

noncomputable section

attribute [local irreducible] multinomialIdx killingIdx

variable {K X Inp : Type} {N n : ℕ} [MeasurableSpace K] {P : Measure K} {rng : Rng K} [MeasurableSpace X]
  {mdl : FKModel K X Inp}

/-- C84: run a particle filter with unbiased and concentrating resampling and then, with an independent key, the
smoother with exact backward sampling. If, for all inputs, the exponential of the log potential of the smoother is the
density of the weighted transitions of the filter (up to factors that depend on the later state only), then
the mean squared error of the average of a bounded function of the smoothed paths is at most a constant over the number
`n` of smoother particles plus a constant times the error `r` of one resampling step. Missing: generators such as JAX's
default one (`PrefixSplit`), for which the smoother is biased for every number of particles, and log potentials
that depend on the inputs, for which this is false, see `exact_smoother_biased` and `smoother_uses_wrong_inputs`. -/
theorem exact_smoother_accurate_partial [NeZero N] [NeZero n] (h : IdealRng rng P) (hind : IndepSplit rng.toPrng P)
    {R' : Resampler K N X} {I : K → (Fin N → Fl) → Fin N → Fin N} {L : K → (Fin N → Fl) → Fin N → Fl}
    (hR' : Uses R' I L) (hU : UnbiasedWeights P I L) {κ : ℝ≥0∞} (hK : Concentrates P I L κ) {r : ℝ}
    (hκ : κ ≤ ENNReal.ofReal r) (hNr : 1 / (N : ℝ) ≤ r) {u0 u : Inp} {us : List Inp}
    (h0 : Measurable fun k => mdl.initSample k u0) (hu : ∀ v ∈ u :: us, mdl.Regular v) {B : ℝ} (hB : 0 ≤ B)
    (hb : ∀ v ∈ u :: us, ∀ x x', (mdl.logPotential x x' v).lik ≤ B)
    (hd : RevivesDead L ∨ ∀ v ∈ u :: us, ∀ x x', (mdl.logPotential x x' v).IsFin) (dummy : X)
    {pf : Platform} {R : Resampler K N X} (hR : R = multinomial rng pf ∨ n = N ∧ R = killing rng pf)
    (inputsOf : Except Err (PFState K X Inp N) → Inp) (dummyInp : Inp → Except Err Inp)
    {logPotential : X → X → Inp → Fl}
    (hlp : ∀ v ∈ u :: us, ∀ w, BackwardDensity (mdl.step P v) fun x x' => logPotential x x' w)
    {d d' : Inp} (hdd : dummyInp u = .ok d) (hdd' : dummyInp d = .ok d') {T : ℕ} (hT : T = us.length + 1) {z : ℝ}
    (hz : z = (fkExp (mdl.init P u0) ((u :: us).map (mdl.step P)) fun _ => 1).toReal) (hz0 : 0 < z) :
    AccurateSmoother rng P mdl R' (particleSmoother rng.toPrng dummyInp logPotential (exact rng) R n) n inputsOf
      dummyInp dummy u0 (u :: us) fun c => 32 * c ^ 2 / n + 26 * (2 * T + 1) * r * (B ^ T * c / z) ^ 2 := by
  have hP := h.prob
  have hr : 0 ≤ r := le_trans (by positivity) hNr
  obtain ⟨J, hJ, hRJ⟩ : ∃ J : K → (Fin N → Fl) → Fin n → Fin N, AccurateIdx P n J ∧
      ∀ k l pos, R k l pos n = .ok ⟨J k l, fun _ => 0, fun m => pos (J k l m)⟩ := by
    rcases hR with rfl | ⟨rfl, rfl⟩
    · exact ⟨_, accurateIdx_multinomial h pf, fun k l pos => multinomial_eq rng pf k l pos n⟩
    · exact ⟨_, accurateIdx_killing h pf, fun k l pos => killing_eq rng pf k l pos⟩
  obtain ⟨ld, hld⟩ : ∃ ld, ld = usedDensity logPotential (u :: us) d' := ⟨_, rfl⟩
  have hldd : ∀ s (hs : s < (u :: us).length), BackwardDensity (mdl.step P (u :: us)[s]) (ld s) := fun s hs => by
    rw [hld]
    exact hlp _ (List.getElem_mem hs) _
  have hbb : BackBounds rng P mdl I L u0 (u :: us) ld (ENNReal.ofReal B) κ :=
    ⟨⟨h, hU, hK, firstStep_indep hU hK hind, le_self_add, h0, hu,
      fun v hv x x' => ENNReal.ofReal_le_ofReal (hb v hv x x'), hd⟩, hind, hldd⟩
  have hg := fun k => pfRun_good (rng := rng.toPrng) (mdl := mdl) (I := I) hU.isLogits u0 (u :: us) k
    (fun u h => (hu u h).isLog) hd (us.length + 1) (by simp)
  obtain ⟨S, hS⟩ : ∃ S : K → ℕ → PFState K X Inp N, S = fun k t => pfRun rng.toPrng mdl I L u0 (u :: us) k t :=
    ⟨_, rfl⟩
  refine ⟨S, fun k k' m => backPath rng ld (fun t => (S k t).core)
      (fun t => rng.nth (backKey rng.toPrng k' (us.length + 1) t) n m) (us.length + 1)
      (J (rng.nth (rng.nth k' (us.length + 2) 0) 2 1) (S k (us.length + 1)).logWeights m),
    fun k => by rw [hS]; exact filter_pf_eq hR' dummy u0 (u :: us) k,
    fun k k' => exact_smoother_returns (S k) hRJ inputsOf dummyInp logPotential hdd hdd' hld k', fun f c hf hfc => ?_⟩
  have hc : 0 ≤ c := (abs_nonneg _).trans (hfc fun _ => dummy)
  have hn : (0 : ℝ) < n := by exact_mod_cast NeZero.pos n
  obtain ⟨Y, hY⟩ : ∃ Y : K → K → ℝ, Y = fun k k' => ∑ m, (n : ℝ)⁻¹ * f (backPath rng ld (fun t => (S k t).core)
      (fun t => rng.nth (backKey rng.toPrng k' (us.length + 1) t) n m) (us.length + 1)
      (J (rng.nth (rng.nth k' (us.length + 2) 0) 2 1) (S k (us.length + 1)).logWeights m)) := ⟨_, rfl⟩
  obtain ⟨A, hA⟩ : ∃ A : K → ℝ, A = fun k => backAvg P rng ld (fun t => (S k t).core) (us.length + 1) f := ⟨_, rfl⟩
  obtain ⟨Λ, hΛ⟩ : ∃ Λ : K → ℝ, Λ = fun k => (S k (us.length + 1)).logZ.lik := ⟨_, rfl⟩
  have hsm : ∀ k k', (∑ m, f (backPath rng ld (fun t => (S k t).core)
      (fun t => rng.nth (backKey rng.toPrng k' (us.length + 1) t) n m) (us.length + 1)
      (J (rng.nth (rng.nth k' (us.length + 2) 0) 2 1) (S k (us.length + 1)).logWeights m))) / n = Y k k' := by
    intro k k'
    rw [hY]
    simp only
    rw [← Finset.mul_sum, div_eq_inv_mul]
  simp only [hsm]
  have hback := fun k => mse_backPath h ld (fun t => (S k t).core) (us.length + 1) hJ hfc
  have hYm : ∀ k, Measurable (Y k) := fun k => by
    rw [hY]
    exact (hback k).1
  refine ⟨hYm, ?_⟩
  obtain ⟨μ, hμ⟩ : ∃ μ, μ = fkMean (mdl.init P u0) ((u :: us).map (mdl.step P)) f := ⟨_, rfl⟩
  rw [← hμ]
  obtain ⟨s, hs⟩ : ∃ s, s = (2 * T + 1) * r := ⟨_, rfl⟩
  have hs0 : 0 ≤ s := by rw [hs]; positivity
  have hle : (N : ℝ≥0∞)⁻¹ + 2 * κ * (us.length + 1 : ℕ) ≤ ENNReal.ofReal s := by
    calc (N : ℝ≥0∞)⁻¹ + 2 * κ * (us.length + 1 : ℕ) ≤ ENNReal.ofReal r + 2 * ENNReal.ofReal r * (us.length + 1 : ℕ) := by
          gcongr
          rw [← ofReal_inv_natCast]
          exact ENNReal.ofReal_le_ofReal hNr
      _ = ENNReal.ofReal s := by
          rw [hs, hT, ← ENNReal.ofReal_natCast, show (2 : ℝ≥0∞) = ENNReal.ofReal 2 by simp,
            ← ENNReal.ofReal_mul (by norm_num), ← ENNReal.ofReal_mul (by positivity),
            ← ENNReal.ofReal_add hr (by positivity)]
          congr 1
          push_cast
          ring
  -- the errors of the filter
  obtain ⟨hΛm, hΛe⟩ : Measurable Λ ∧ ∫⁻ k, ENNReal.ofReal ((Λ k - z) ^ 2) ∂P ≤ ENNReal.ofReal (s * (B ^ T) ^ 2) := by
    obtain ⟨e1, e2⟩ := hbb.mse_evidence ENNReal.ofReal_ne_top
    rw [hΛ, hS, hz, hT]
    refine ⟨e1, e2.trans ?_⟩
    rw [ENNReal.ofReal_mul hs0, ENNReal.ofReal_pow (by positivity), ENNReal.ofReal_pow hB]
    exact mul_le_mul_left hle _
  have hAe : ∫⁻ k, ENNReal.ofReal ((A k - μ) ^ 2) ∂P ≤ ENNReal.ofReal (9 * (s * (B ^ T * c / z) ^ 2)) := by
    have e1 := hbb.mse_average ENNReal.ofReal_ne_top hf hc hfc hz hz0
    rw [hA, hS, hμ, hT]
    refine e1.trans ?_
    rw [mul_div_assoc, ENNReal.ofReal_mul (by norm_num), ENNReal.ofReal_mul hs0, ENNReal.ofReal_pow (by positivity),
      ENNReal.ofReal_mul (by positivity), ENNReal.ofReal_pow hB, ENNReal.ofReal_ofNat]
    exact mul_le_mul_right (mul_le_mul_left hle _) _
  have hin : ∀ k, ∫⁻ k', ENNReal.ofReal ((Y k k' - A k) ^ 2) ∂P ≤
      ENNReal.ofReal (16 * c ^ 2 / n) + ENNReal.ofReal (4 * c ^ 2 / z ^ 2) * ENNReal.ofReal ((Λ k - z) ^ 2) := by
    intro k
    rcases (hg k).alive with h10 | h10
    · rw [hA, hY]
      refine ((hback k).2 ?_).trans le_self_add
      rw [hS]
      exact h10
    · have hLk : Λ k = 0 := by
        have h11 : (S k (us.length + 1)).logZ = Fl.ninf := by
          rw [hS]
          exact h10.2
        rw [hΛ]
        simp only [h11]
        rfl
      calc ∫⁻ k', ENNReal.ofReal ((Y k k' - A k) ^ 2) ∂P ≤ ∫⁻ _, ENNReal.ofReal (4 * c ^ 2) ∂P := by
            refine lintegral_mono fun k' => ENNReal.ofReal_le_ofReal ?_
            have e1 : |Y k k'| ≤ c := by rw [hY]; exact abs_mean_le fun m => hfc _
            have e2 : |A k| ≤ c := by
              rw [hA]
              exact abs_weighted_le hc fun i => abs_backMean_le h hfc i
            rw [abs_le] at e1 e2
            nlinarith
        _ = ENNReal.ofReal (4 * c ^ 2) := by rw [lintegral_const, measure_univ, mul_one]
        _ = ENNReal.ofReal (4 * c ^ 2 / z ^ 2) * ENNReal.ofReal ((Λ k - z) ^ 2) := by
            rw [hLk, ← ENNReal.ofReal_mul (by positivity)]
            congr 1
            field_simp
            ring
        _ ≤ _ := le_add_self
  have hout : ∀ k, ∫⁻ k', ENNReal.ofReal ((Y k k' - μ) ^ 2) ∂P ≤
      2 * ENNReal.ofReal ((A k - μ) ^ 2) + 2 * (ENNReal.ofReal (16 * c ^ 2 / n) +
        ENNReal.ofReal (4 * c ^ 2 / z ^ 2) * ENNReal.ofReal ((Λ k - z) ^ 2)) := by
    intro k
    calc ∫⁻ k', ENNReal.ofReal ((Y k k' - μ) ^ 2) ∂P ≤
        ∫⁻ k', (2 * ENNReal.ofReal ((A k - μ) ^ 2) + 2 * ENNReal.ofReal ((Y k k' - A k) ^ 2)) ∂P := by
          refine lintegral_mono fun k' => ?_
          have e3 : ENNReal.ofReal (2 * (A k - μ) ^ 2 + 2 * (Y k k' - A k) ^ 2) =
              2 * ENNReal.ofReal ((A k - μ) ^ 2) + 2 * ENNReal.ofReal ((Y k k' - A k) ^ 2) := by
            rw [ENNReal.ofReal_add (by positivity) (by positivity), ENNReal.ofReal_mul (by norm_num),
              ENNReal.ofReal_mul (by norm_num)]
            simp
          rw [← e3]
          refine ENNReal.ofReal_le_ofReal ?_
          nlinarith [sq_nonneg (A k - μ - (Y k k' - A k))]
      _ = 2 * ENNReal.ofReal ((A k - μ) ^ 2) + 2 * ∫⁻ k', ENNReal.ofReal ((Y k k' - A k) ^ 2) ∂P := by
          rw [lintegral_add_left measurable_const, lintegral_const, measure_univ, mul_one,
            lintegral_const_mul' _ _ (by norm_num)]
      _ ≤ _ := by gcongr; exact hin k
  have hmL : Measurable fun k => ENNReal.ofReal ((Λ k - z) ^ 2) :=
    ENNReal.measurable_ofReal.comp ((hΛm.sub_const _).pow_const 2)
  calc ∫⁻ k, ∫⁻ k', ENNReal.ofReal ((Y k k' - μ) ^ 2) ∂P ∂P ≤
      ∫⁻ k, (2 * ENNReal.ofReal ((A k - μ) ^ 2) + 2 * (ENNReal.ofReal (16 * c ^ 2 / n) +
        ENNReal.ofReal (4 * c ^ 2 / z ^ 2) * ENNReal.ofReal ((Λ k - z) ^ 2))) ∂P := lintegral_mono hout
    _ = 2 * ∫⁻ k, ENNReal.ofReal ((A k - μ) ^ 2) ∂P + 2 * (ENNReal.ofReal (16 * c ^ 2 / n) +
        ENNReal.ofReal (4 * c ^ 2 / z ^ 2) * ∫⁻ k, ENNReal.ofReal ((Λ k - z) ^ 2) ∂P) := by
        rw [lintegral_add_right _ (((hmL.const_mul _).const_add _).const_mul 2), lintegral_const_mul' _ _ (by norm_num),
          lintegral_const_mul' _ _ (by norm_num), lintegral_add_left measurable_const,
          lintegral_const, measure_univ, mul_one, lintegral_const_mul _ hmL]
    _ ≤ 2 * ENNReal.ofReal (9 * (s * (B ^ T * c / z) ^ 2)) + 2 * (ENNReal.ofReal (16 * c ^ 2 / n) +
        ENNReal.ofReal (4 * c ^ 2 / z ^ 2) * ENNReal.ofReal (s * (B ^ T) ^ 2)) := by gcongr
    _ = _ := by
        rw [← ENNReal.ofReal_mul (by positivity), ← ENNReal.ofReal_add (by positivity) (by positivity),
          show (2 : ℝ≥0∞) = ENNReal.ofReal 2 by simp, ← ENNReal.ofReal_mul (by norm_num),
          ← ENNReal.ofReal_mul (by norm_num), ← ENNReal.ofReal_add (by positivity) (by positivity), hs]
        congr 1
        field_simp
        ring

/-- C84: the particle filter followed by the smoother with exact backward sampling is consistent. Missing: as above. -/
theorem exact_smoother_consistent_partial (h : IdealRng rng P) (hind : IndepSplit rng.toPrng P) (pf pf' : Platform)
    {u0 u : Inp} {us : List Inp} (h0 : Measurable fun k => mdl.initSample k u0)
    (hu : ∀ v ∈ u :: us, mdl.Regular v) {B : ℝ} (hb : ∀ v ∈ u :: us, ∀ x x', (mdl.logPotential x x' v).lik ≤ B)
    (hz : 0 < (fkExp (mdl.init P u0) ((u :: us).map (mdl.step P)) fun _ => 1).toReal)
    {R' R : ∀ N : ℕ, Resampler K (N + 1) X}
    (hR' : (R' = fun _ => multinomial rng pf) ∨ (R' = fun _ => killing rng pf) ∨
      (∀ v ∈ u :: us, ∀ x x', (mdl.logPotential x x' v).IsFin) ∧ ∃ θ : ℝ, 0 < θ ∧ θ ≤ 1 ∧
        ((R' = fun _ => adaptive (multinomial rng pf) θ) ∨ R' = fun _ => adaptive (killing rng pf) θ))
    (hR : (R = fun _ => multinomial rng pf') ∨ R = fun _ => killing rng pf')
    (inputsOf : ∀ N : ℕ, Except Err (PFState K X Inp (N + 1)) → Inp) (dummyInp : Inp → Except Err Inp)
    {logPotential : X → X → Inp → Fl}
    (hlp : ∀ v ∈ u :: us, ∀ w, BackwardDensity (mdl.step P v) fun x x' => logPotential x x' w)
    {d d' : Inp} (hd : dummyInp u = .ok d) (hd' : dummyInp d = .ok d') (dummy : X) :
    ConsistentSmoothers rng P mdl R'
      (fun N => particleSmoother rng.toPrng dummyInp logPotential (exact rng) (R N) (N + 1)) inputsOf dummyInp dummy
      u0 (u :: us) := by
  have hP := h.prob
  have hB : 0 ≤ max B 0 := le_max_right _ _
  have hb' : ∀ v ∈ u :: us, ∀ x x', (mdl.logPotential x x' v).lik ≤ max B 0 := fun v hv x x' =>
    (hb v hv x x').trans (le_max_left _ _)
  obtain ⟨θ, hθ, hθ1, key⟩ : ∃ θ : ℝ, 0 < θ ∧ θ ≤ 1 ∧ ∀ N, ∃ I L, Uses (R' N) I L ∧ UnbiasedWeights P I L ∧
      Concentrates P I L (ENNReal.ofReal (1 / (θ * ((N + 1 : ℕ) : ℝ)))) ∧
      (RevivesDead L ∨ ∀ v ∈ u :: us, ∀ x x', (mdl.logPotential x x' v).IsFin) := by
    have h1 : ∀ N : ℕ, ((N + 1 : ℕ) : ℝ≥0∞)⁻¹ = ENNReal.ofReal (1 / (1 * ((N + 1 : ℕ) : ℝ))) := fun N => by
      rw [one_mul, ofReal_inv_natCast]
    have hmax : ∀ (θ : ℝ) (N : ℕ), 0 < θ → θ ≤ 1 →
        max ((N + 1 : ℕ) : ℝ≥0∞)⁻¹ (ENNReal.ofReal (θ * ((N + 1 : ℕ) : ℝ))⁻¹) =
          ENNReal.ofReal (1 / (θ * ((N + 1 : ℕ) : ℝ))) := by
      intro θ N hθ hθ1
      have hN : (0 : ℝ) < ((N + 1 : ℕ) : ℝ) := by positivity
      rw [← one_div (θ * ((N + 1 : ℕ) : ℝ)), ← ofReal_inv_natCast]
      refine max_eq_right (ENNReal.ofReal_le_ofReal (one_div_le_one_div_of_le (by positivity) ?_))
      nlinarith
    rcases hR' with rfl | rfl | ⟨hfin, θ, hθ, hθ1, rfl | rfl⟩
    · refine ⟨1, one_pos, le_rfl, fun N => ⟨_, _, uses_multinomial rng pf, unbiasedWeights_multinomial h pf, ?_,
        .inl revivesDead_zero⟩⟩
      rw [← h1]
      exact concentrates_multinomial h pf
    · refine ⟨1, one_pos, le_rfl, fun N => ⟨_, _, uses_killing rng pf, unbiasedWeights_killing h pf, ?_,
        .inl revivesDead_zero⟩⟩
      rw [← h1]
      exact concentrates_killing h pf
    · refine ⟨θ, hθ, hθ1, fun N => ⟨_, _, uses_adaptive (uses_multinomial rng pf) θ,
        (unbiasedWeights_multinomial h pf).adaptive θ, ?_, .inr hfin⟩⟩
      rw [← hmax θ N hθ hθ1]
      exact (concentrates_multinomial h pf).adaptive hθ
    · refine ⟨θ, hθ, hθ1, fun N => ⟨_, _, uses_adaptive (uses_killing rng pf) θ,
        (unbiasedWeights_killing h pf).adaptive θ, ?_, .inr hfin⟩⟩
      rw [← hmax θ N hθ hθ1]
      exact (concentrates_killing h pf).adaptive hθ
  obtain ⟨z, hz'⟩ : ∃ z, z = (fkExp (mdl.init P u0) ((u :: us).map (mdl.step P)) fun _ => 1).toReal := ⟨_, rfl⟩
  rw [← hz'] at hz
  refine consistentSmoothers_of_accurate (e := fun N c => 32 * c ^ 2 / ((N + 1 : ℕ) : ℝ) +
    26 * (2 * (us.length + 1 : ℕ) + 1) * (1 / (θ * ((N + 1 : ℕ) : ℝ))) *
      (max B 0 ^ (us.length + 1) * c / z) ^ 2) (fun N => ?_) fun c => ?_
  · obtain ⟨I, L, k1, k2, k3, k4⟩ := key N
    have hN : (0 : ℝ) < ((N + 1 : ℕ) : ℝ) := by positivity
    refine exact_smoother_accurate_partial h hind k1 k2 k3 le_rfl (one_div_le_one_div_of_le (by positivity) (by nlinarith))
      h0 hu hB hb' k4 dummy (pf := pf') ?_ (inputsOf N) dummyInp hlp hd hd' rfl hz' hz
    rcases hR with rfl | rfl
    · exact .inl rfl
    · exact .inr ⟨rfl, rfl⟩
  · have h1 := (tendsto_inv_succ 1).const_mul (32 * c ^ 2)
    have h2 := (tendsto_inv_succ θ).const_mul (26 * (2 * (us.length + 1 : ℕ) + 1) *
      (max B 0 ^ (us.length + 1) * c / z) ^ 2)
    have h3 := h1.add h2
    rw [mul_zero, mul_zero, add_zero] at h3
    refine h3.congr fun N => ?_
    ring

/-- The hypotheses of C84 are met by ideal keys with independent splits, a random walk with uniform steps that prefers
small positions, and adaptive resampling. -/
example : ∃ rng : Rng Key, IndepSplit rng.toPrng keyLaw ∧
    ConsistentSmoothers rng keyLaw (⟨fun k _ => rng.uniform0 k, fun k x _ => x + rng.uniform0 k,
      fun x _ _ => .fin (-(|x| / (1 + |x|)))⟩ : FKModel Key ℝ ℝ)
      (fun _ => adaptive (killing rng .cpu) (1 / 2)) (fun N => particleSmoother rng.toPrng (fun _ => .ok 0)
        (fun x x' _ => if x ≤ x' ∧ x' < x + 1 then Fl.fin (-(|x| / (1 + |x|))) else Fl.ninf) (exact rng)
        (multinomial rng .cpu) (N + 1)) (fun _ _ => 0) (fun _ => .ok 0) 0 0 [1, 2, 3] := by
  obtain ⟨rng, h1, h2⟩ := exists_ideal_indep
  have hP := h1.prob
  have hpos : ∀ x : ℝ, 0 ≤ |x| / (1 + |x|) ∧ |x| / (1 + |x|) ≤ 1 := fun x =>
    ⟨by positivity, (div_le_one (by positivity)).mpr (by linarith [abs_nonneg x])⟩
  have hpm : Measurable fun q : ℝ × ℝ => Fl.fin (-(|q.1| / (1 + |q.1|))) :=
    Fl.measurable_fin.comp (measurable_fst.norm.div (measurable_const.add measurable_fst.norm)).neg
  refine ⟨rng, h2, exact_smoother_consistent_partial h1 h2 .cpu .cpu h1.uniform0.measurable (fun v _ => ⟨?_, hpm, ?_⟩)
    (B := 1) (fun v _ x x' => ?_) ?_ (.inr (.inr ⟨fun v _ x x' => by trivial, 1 / 2, by norm_num, by norm_num, .inr rfl⟩))
    (.inl rfl) (fun _ _ => 0) (fun _ => .ok 0) (fun v _ w => ⟨?_, ?_, ?_⟩) rfl rfl 0⟩
  · exact measurable_snd.add (h1.uniform0.measurable.comp measurable_fst)
  · intro x x'
    trivial
  · simp only [Fl.lik, Real.exp_le_one_iff]
    linarith [(hpos x).1]
  · have hmem := fun x => fkPathExp_one_mem (a := ENNReal.ofReal (Real.exp (-1))) (([1, 2, 3] : List ℝ).map
      (FKModel.step (⟨fun k _ => rng.uniform0 k, fun k x _ => x + rng.uniform0 k,
        fun x _ _ => .fin (-(|x| / (1 + |x|)))⟩ : FKModel Key ℝ ℝ) keyLaw)) x (by
      intro s hs
      obtain ⟨v, -, rfl⟩ := List.mem_map.mp hs
      refine ⟨fun x => Measure.isProbabilityMeasure_map (h1.uniform0.measurable.const_add x).aemeasurable,
        fun x x' => ⟨ENNReal.ofReal_le_ofReal ?_, ENNReal.ofReal_le_one.mpr ?_⟩⟩
      · exact Real.exp_le_exp.mpr (by linarith [(hpos x).2])
      · exact Real.exp_le_one_iff.mpr (by linarith [(hpos x).1]))
    have hinit : IsProbabilityMeasure (keyLaw.map fun k => rng.uniform0 k) :=
      Measure.isProbabilityMeasure_map h1.uniform0.measurable.aemeasurable
    refine ENNReal.toReal_pos (ne_of_gt ?_) (ne_top_of_le_ne_top ENNReal.one_ne_top ?_)
    · calc 0 < ENNReal.ofReal (Real.exp (-1)) ^ 3 := by
            refine ENNReal.pow_pos (ENNReal.ofReal_pos.mpr (Real.exp_pos _)) _
        _ = ∫⁻ _, ENNReal.ofReal (Real.exp (-1)) ^ 3 ∂(keyLaw.map fun k => rng.uniform0 k) := by
            rw [lintegral_const, measure_univ, mul_one]
        _ ≤ _ := lintegral_mono fun x => (hmem x).1
    · calc _ ≤ ∫⁻ _, 1 ∂(keyLaw.map fun k => rng.uniform0 k) := lintegral_mono fun x => (hmem x).2
        _ = 1 := by rw [lintegral_const, measure_univ, mul_one]
  · intro x x'
    split_ifs <;> trivial
  · refine Measurable.ite ?_ hpm measurable_const
    exact (measurableSet_le measurable_fst measurable_snd).inter
      (measurableSet_lt measurable_snd (measurable_fst.add_const 1))
  · refine ⟨volume, fun x => ?_⟩
    have e1 : keyLaw.map (fun k => x + rng.uniform0 k) = volume.restrict (Ico x (x + 1)) := by
      have h2 : keyLaw.map (fun k => x + rng.uniform0 k) = (keyLaw.map rng.uniform0).map fun y => x + y :=
        (Measure.map_map (measurable_const_add x) h1.uniform0.measurable).symm
      rw [h2, h1.uniform0.map_eq, unif]
      have h3 : Ico (0 : ℝ) 1 = (fun y => x + y) ⁻¹' Ico x (x + 1) := by
        ext y
        simp
      rw [h3, ← Measure.restrict_map (measurable_const_add x) measurableSet_Ico, map_add_left_eq_self]
    simp only [FKModel.step]
    rw [e1, ← withDensity_indicator measurableSet_Ico]
    congr 1
    funext x'
    simp only [indicator_apply, mem_Ico]
    by_cases h5 : x ≤ x' ∧ x' < x + 1
    · rw [if_pos h5, if_pos h5]
    · rw [if_neg h5, if_neg h5]
      simp [Fl.lik]

end

end Cuthbert.SMC
