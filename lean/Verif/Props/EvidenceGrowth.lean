import Verif.Lemmas.SMCEvidence
import Verif.Props.UniformError

/-!
# Properties: the relative error of the evidence (C117)
-/

namespace Cuthbert.SMC
open MeasureTheory Set Resampling Spec Filter
open scoped ENNReal NNReal Topology

noncomputable section

variable {K X Inp : Type} {N : ℕ}

/-! ## C117 -/

/-- A run of the particle filter never raises, the evidence is positive, and the mean squared relative error of
`exp(log_normalizing_constant)` after `t` steps is at most `exp(2 (t + 12) v) - 1`. -/
def RelativelyAccurateRun [MeasurableSpace K] [MeasurableSpace X] (rng : Rng K) (P : Measure K) (mdl : FKModel K X Inp)
    (R : Resampler K N X) (dummy : X) (u0 : Inp) (us : List Inp) (v : ℝ) : Prop :=
  ∃ S : K → ℕ → PFState K X Inp N,
    (∀ k, filter rng.toPrng (particleFilter rng.toPrng mdl dummy N R) (u0 :: us) false (some k) =
      ⟨false, .ok ((List.range (us.length + 1)).map fun t => .ok (S k t))⟩) ∧
    ∀ t ≤ us.length, ∀ z : ℝ, z = (fkExp (mdl.init P u0) ((us.take t).map (mdl.step P)) fun _ => 1).toReal →
      0 < z ∧ Measurable (fun k => (S k t).logZ.lik) ∧
      ∫⁻ k, ENNReal.ofReal (((S k t).logZ.lik / z - 1) ^ 2) ∂P ≤ ENNReal.ofReal (Real.exp (2 * (t + 12) * v) - 1)

section law

variable [MeasurableSpace K] [MeasurableSpace X] {P : Measure K} {rng : Rng K} {mdl : FKModel K X Inp}
  {I : K → (Fin N → Fl) → Fin N → Fin N} {L : K → (Fin N → Fl) → Fin N → Fl} {u0 : Inp} {us : List Inp} {r b : ℝ≥0}

/-- C117 for a resampling function that concentrates. -/
theorem relativelyAccurate_of_bounds [NeZero N] {R : Resampler K N X} (hU : Uses R I L) (h : IdealRng rng P)
    (hR : UnbiasedWeights P I L) {κ δ : ℝ≥0∞} (hK : Concentrates P I L κ) (hF : FirstStep rng.toPrng P I L δ)
    {r0 : ℝ} (hr0 : 0 ≤ r0) (hκ : κ ≤ ENNReal.ofReal r0) (hδ : δ ≤ 8 * ENNReal.ofReal r0)
    (hr : 1 ≤ r) (hb : 1 ≤ b) (h0 : Measurable fun k => mdl.initSample k u0)
    (hu : ∀ u ∈ us, mdl.Regular u) (hq : ∀ u ∈ us, (mdl.step P u).Forgets r b)
    (hd : RevivesDead L ∨ ∀ u ∈ us, ∀ x x', (mdl.logPotential x x' u).IsFin) (dummy : X) :
    RelativelyAccurateRun rng P mdl R dummy u0 us ((b * r) ^ 2 * r0) := by
  have := h.prob
  refine ⟨fun k t => pfRun rng.toPrng mdl I L u0 us k t, fun k => filter_pf_eq hU dummy u0 us k, ?_⟩
  intro t ht z hz
  have hq' : ∀ u ∈ us, ForgetsQ P mdl u r b := fun u hu' => forgetsQ (hu u hu') (hq u hu')
  have mf : Measurable fun _ : X => (1 : ℝ≥0∞) := measurable_const
  have hgood := fun k => pfRun_good (rng := rng.toPrng) (mdl := mdl) (I := I) hR.isLogits u0 us k
    (fun u h => (hu u h).isLog) hd t ht
  have hcore : ∀ k, (pfRun rng.toPrng mdl I L u0 us k t).core =
      coreAt rng.toPrng mdl I L us t (rng.nth k (us.length + 1) 0)
        (coreInit mdl u0 (rng.nth (rng.nth k (us.length + 1) 0) N)) (Fin.tail (rng.nth k (us.length + 1))) := fun k =>
    core_pfAt us t _ _
  obtain ⟨g, hgd⟩ : ∃ g, g = ∫⁻ x, fkG P mdl (fun _ => 1) us t x ∂mdl.init P u0 := ⟨_, rfl⟩
  have hzg : z = g.toReal := by
    rw [hz, hgd]
    congr 1
    exact lintegral_congr fun x => (fkG_eq mf us t x ht hu).symm
  obtain ⟨m2, m1, hg0, hgt⟩ := evidence_moments h hR hK hF h0 hr us t ht hu hq' hd hgd
  have hzpos : 0 < z := by rw [hzg]; exact ENNReal.toReal_pos hg0 hgt
  -- the estimate
  obtain ⟨Y, hY⟩ : ∃ Y : K → ℝ≥0∞, Y = fun k => est (fun _ => 1) (pfRun rng.toPrng mdl I L u0 us k t).core := ⟨_, rfl⟩
  have hYl : ∀ k, Y k = ENNReal.ofReal (pfRun rng.toPrng mdl I L u0 us k t).logZ.lik := fun k => by
    rw [hY]
    exact est_one (hgood k)
  have hYt : ∀ k, Y k ≠ ⊤ := fun k => by rw [hYl]; exact ENNReal.ofReal_ne_top
  have hYm : Measurable Y := by
    rw [hY]
    simp only [hcore]
    exact (measurable_est mf).comp ((measurable_runCore h hR h0 us t hu).comp (measurable_nthAll h (us.length + 1)))
  have e2 : ∫⁻ k, Y k ^ 2 ∂P ≤ (1 + δ * (b * r) ^ 2) * (1 + 2 * κ * (b * r) ^ 2) ^ t * g ^ 2 := by
    rw [hY]
    simp only [hcore]
    rwa [lintegral_runCore h hR h0 us t hu (g := fun c => est (fun _ => 1) c ^ 2) ((measurable_est mf).pow_const 2)]
  have e1 : g ≤ (∫⁻ k, Y k ∂P) + δ * (b * r * g) := by
    rw [hY]
    simp only [hcore]
    rwa [lintegral_runCore h hR h0 us t hu (measurable_est mf)]
  refine ⟨hzpos, ?_, ?_⟩
  · have h1 := hYm.ennreal_toReal
    simp only [hYl, ENNReal.toReal_ofReal (Fl.lik_nonneg _)] at h1
    exact h1
  obtain ⟨β, hβ⟩ : ∃ β : ℝ, β = (b * r) ^ 2 := ⟨_, rfl⟩
  have hβ0 : 0 ≤ β := by rw [hβ]; positivity
  have hβe : ENNReal.ofReal β = (b * r : ℝ≥0∞) ^ 2 := by
    rw [hβ, ENNReal.ofReal_pow (by positivity), ENNReal.ofReal_mul (by positivity)]
    simp
  have hbr : (b * r : ℝ≥0∞) ≤ ENNReal.ofReal β := by
    rw [hβe, sq]
    refine le_mul_of_one_le_left' ?_
    exact one_le_mul (by exact_mod_cast hb) (by exact_mod_cast hr)
  have hA : (1 + δ * (b * r) ^ 2) * (1 + 2 * κ * (b * r) ^ 2) ^ t ≤
      ENNReal.ofReal ((1 + 8 * r0 * β) * (1 + 2 * r0 * β) ^ t) := by
    rw [ENNReal.ofReal_mul (by positivity), ENNReal.ofReal_pow (by positivity),
      ENNReal.ofReal_add zero_le_one (by positivity), ENNReal.ofReal_add zero_le_one (by positivity), ENNReal.ofReal_one,
      ENNReal.ofReal_mul (by positivity), ENNReal.ofReal_mul (by positivity), ENNReal.ofReal_mul (by positivity),
      ENNReal.ofReal_mul (by positivity), hβe]
    simp only [ENNReal.ofReal_ofNat]
    gcongr
  have hgz : g = ENNReal.ofReal z := by rw [hzg, ENNReal.ofReal_toReal hgt]
  obtain ⟨A, hAd⟩ : ∃ A : ℝ, A = (1 + 8 * r0 * β) * (1 + 2 * r0 * β) ^ t := ⟨_, rfl⟩
  rw [← hAd] at hA
  have hA0 : 0 ≤ A := by rw [hAd]; positivity
  have hI2 := e2.trans (mul_le_mul_left hA _)
  have hI1 : g ≤ (∫⁻ k, Y k ∂P) + ENNReal.ofReal (8 * r0 * β) * g := by
    refine e1.trans (add_le_add le_rfl ?_)
    rw [ENNReal.ofReal_mul (by positivity), ENNReal.ofReal_mul (by positivity), ← mul_assoc]
    simp only [ENNReal.ofReal_ofNat]
    gcongr
  have h2t : ∫⁻ k, Y k ^ 2 ∂P ≠ ⊤ :=
    ne_top_of_le_ne_top (ENNReal.mul_ne_top ENNReal.ofReal_ne_top (ENNReal.pow_ne_top hgt)) hI2
  have h5 : ∫⁻ k, Y k ∂P ≠ ⊤ := by
    refine ne_top_of_le_ne_top (b := ∫⁻ k, 1 + Y k ^ 2 ∂P) ?_ (lintegral_mono fun k => ?_)
    · rw [lintegral_add_left measurable_const, lintegral_const, measure_univ, mul_one]
      exact ENNReal.add_ne_top.mpr ⟨ENNReal.one_ne_top, h2t⟩
    · rcases le_total (Y k) 1 with h6 | h6
      · exact h6.trans le_self_add
      · refine le_add_left ?_
        rw [sq]
        exact le_mul_of_one_le_right' h6
  obtain ⟨E, hE⟩ : ∃ E, E = ∫⁻ k, ENNReal.ofReal (((Y k).toReal - g.toReal) ^ 2) ∂P := ⟨_, rfl⟩
  have h6 : E + 2 * g * ∫⁻ k, Y k ∂P = (∫⁻ k, Y k ^ 2 ∂P) + g ^ 2 := by
    rw [hE, ← lintegral_const_mul _ hYm, ← lintegral_add_right _ (hYm.const_mul _)]
    simp only [fun k => ofReal_sub_sq (hYt k) hgt]
    rw [lintegral_add_right _ measurable_const, lintegral_const, measure_univ, mul_one]
  have hEt : E ≠ ⊤ := by
    refine ne_top_of_le_ne_top ?_ (le_self_add.trans h6.le)
    exact ENNReal.add_ne_top.mpr ⟨h2t, ENNReal.pow_ne_top hgt⟩
  -- real arithmetic
  have r6 := congrArg ENNReal.toReal h6
  rw [ENNReal.toReal_add hEt (ENNReal.mul_ne_top (ENNReal.mul_ne_top (by norm_num) hgt) h5),
    ENNReal.toReal_add h2t (ENNReal.pow_ne_top hgt), ENNReal.toReal_mul, ENNReal.toReal_mul, ENNReal.toReal_pow,
    ← hzg] at r6
  have r2 := ENNReal.toReal_mono (ENNReal.mul_ne_top ENNReal.ofReal_ne_top (ENNReal.pow_ne_top hgt)) hI2
  rw [ENNReal.toReal_mul, ENNReal.toReal_ofReal hA0, ENNReal.toReal_pow, ← hzg] at r2
  have r1 := ENNReal.toReal_mono (ENNReal.add_ne_top.mpr ⟨h5, ENNReal.mul_ne_top ENNReal.ofReal_ne_top hgt⟩) hI1
  rw [ENNReal.toReal_add h5 (ENNReal.mul_ne_top ENNReal.ofReal_ne_top hgt), ENNReal.toReal_mul,
    ENNReal.toReal_ofReal (by positivity), ← hzg] at r1
  simp only [ENNReal.toReal_ofNat] at r6
  have hfin : E.toReal ≤ (A - 1 + 16 * r0 * β) * z ^ 2 := by nlinarith
  have hexp : A - 1 + 16 * r0 * β ≤ Real.exp (2 * (t + 12) * (β * r0)) - 1 := by
    have x1 : 1 + 8 * r0 * β ≤ Real.exp (8 * r0 * β) := by
      have := Real.add_one_le_exp (8 * r0 * β)
      linarith
    have x2 : (1 + 2 * r0 * β) ^ t ≤ Real.exp (2 * r0 * β * t) := by
      rw [mul_comm _ (t : ℝ), Real.exp_nat_mul]
      refine pow_le_pow_left₀ (by positivity) ?_ t
      have := Real.add_one_le_exp (2 * r0 * β)
      linarith
    have x3 : A ≤ Real.exp (8 * r0 * β + 2 * r0 * β * t) := by
      rw [hAd, Real.exp_add]
      exact mul_le_mul x1 x2 (by positivity) (Real.exp_pos _).le
    have x4 : Real.exp (2 * (t + 12) * (β * r0)) = Real.exp (8 * r0 * β + 2 * r0 * β * t) * Real.exp (16 * r0 * β) := by
      rw [← Real.exp_add]
      congr 1
      ring
    have x5 : 1 + 16 * r0 * β ≤ Real.exp (16 * r0 * β) := by
      have := Real.add_one_le_exp (16 * r0 * β)
      linarith
    have x6 : 1 ≤ Real.exp (8 * r0 * β + 2 * r0 * β * t) := Real.one_le_exp (by positivity)
    have x7 : 0 ≤ 16 * r0 * β := by positivity
    rw [x4]
    nlinarith
  have hpt : ∀ k, ENNReal.ofReal (((pfRun rng.toPrng mdl I L u0 us k t).logZ.lik / z - 1) ^ 2) =
      ENNReal.ofReal ((z ^ 2)⁻¹) * ENNReal.ofReal (((Y k).toReal - g.toReal) ^ 2) := by
    intro k
    rw [← ENNReal.ofReal_mul (by positivity), hYl, ENNReal.toReal_ofReal (Fl.lik_nonneg _), ← hzg]
    congr 1
    field_simp
  simp only [hpt]
  rw [lintegral_const_mul' _ _ ENNReal.ofReal_ne_top, ← hE, ← ENNReal.ofReal_toReal hEt,
    ← ENNReal.ofReal_mul (by positivity)]
  refine ENNReal.ofReal_le_ofReal ?_
  rw [← hβ]
  refine le_trans ?_ hexp
  rw [inv_mul_le_iff₀ (by positivity)]
  linarith

variable [NeZero N]

/-- C117 with multinomial resampling, for both kinds of generator. -/
theorem multinomial_filter_evidence_relative (h : IdealRng rng P) (hI : IndepSplit rng.toPrng P ∨ PrefixSplit rng.toPrng)
    (pf : Platform) (hr : 1 ≤ r) (hb : 1 ≤ b) (h0 : Measurable fun k => mdl.initSample k u0)
    (hu : ∀ u ∈ us, mdl.Regular u) (hq : ∀ u ∈ us, (mdl.step P u).Forgets r b)
    (dummy : X) :
    RelativelyAccurateRun (N := N) rng P mdl (multinomial rng pf) dummy u0 us
      ((b * r) ^ 2 * (1 / N)) := by
  have := h.prob
  have hf : FirstStep rng.toPrng P (fun k (l : Fin N → Fl) => multinomialIdx rng pf l N k) zeroLogits
      (8 * (N : ℝ≥0∞)⁻¹) := by
    rcases hI with hI | hI
    · refine (firstStep_indep (unbiasedWeights_multinomial h pf) (concentrates_multinomial h pf) hI).mono ?_
      rw [show (N : ℝ≥0∞)⁻¹ + 2 * (N : ℝ≥0∞)⁻¹ = 3 * (N : ℝ≥0∞)⁻¹ by ring]
      gcongr
      norm_num
    · exact firstStep_multinomial h hI pf
  exact relativelyAccurate_of_bounds (uses_multinomial rng pf) h (unbiasedWeights_multinomial h pf)
    (concentrates_multinomial h pf) hf (r0 := 1 / N) (by positivity) (by rw [ofReal_inv_natCast])
    (by rw [ofReal_inv_natCast]) hr hb h0 hu hq (.inl revivesDead_zero) dummy

/-- C117 with killing resampling, for both kinds of generator. -/
theorem killing_filter_evidence_relative (h : IdealRng rng P) (hI : IndepSplit rng.toPrng P ∨ PrefixSplit rng.toPrng)
    (pf : Platform) (hr : 1 ≤ r) (hb : 1 ≤ b) (h0 : Measurable fun k => mdl.initSample k u0)
    (hu : ∀ u ∈ us, mdl.Regular u) (hq : ∀ u ∈ us, (mdl.step P u).Forgets r b)
    (dummy : X) :
    RelativelyAccurateRun (N := N) rng P mdl (killing rng pf) dummy u0 us
      ((b * r) ^ 2 * (1 / N)) := by
  have := h.prob
  have hf : FirstStep rng.toPrng P (fun k (l : Fin N → Fl) => killingIdx rng pf l k) zeroLogits
      (8 * (N : ℝ≥0∞)⁻¹) := by
    rcases hI with hI | hI
    · refine (firstStep_indep (unbiasedWeights_killing h pf) (concentrates_killing h pf) hI).mono ?_
      rw [show (N : ℝ≥0∞)⁻¹ + 2 * (N : ℝ≥0∞)⁻¹ = 3 * (N : ℝ≥0∞)⁻¹ by ring]
      gcongr
      norm_num
    · refine (firstStep_keeps h hI (keepsEqual_killing rng P pf)).mono ?_
      gcongr
      norm_num
  exact relativelyAccurate_of_bounds (uses_killing rng pf) h (unbiasedWeights_killing h pf)
    (concentrates_killing h pf) hf (r0 := 1 / N) (by positivity) (by rw [ofReal_inv_natCast])
    (by rw [ofReal_inv_natCast]) hr hb h0 hu hq (.inl revivesDead_zero) dummy

/-- C117 with adaptive resampling around multinomial or killing resampling, for both kinds of generator. -/
theorem adaptive_filter_evidence_relative (h : IdealRng rng P) (hI : IndepSplit rng.toPrng P ∨ PrefixSplit rng.toPrng)
    {R : Resampler K N X} {pf : Platform} (hR : R = multinomial rng pf ∨ R = killing rng pf) {θ : ℝ} (hθ : 0 < θ)
    (hθ1 : θ ≤ 1) (hr : 1 ≤ r) (hb : 1 ≤ b) (h0 : Measurable fun k => mdl.initSample k u0)
    (hu : ∀ u ∈ us, mdl.Regular u) (hq : ∀ u ∈ us, (mdl.step P u).Forgets r b)
    (hd : ∀ u ∈ us, ∀ x x', (mdl.logPotential x x' u).IsFin) (dummy : X) :
    RelativelyAccurateRun rng P mdl (adaptive R θ) dummy u0 us
      ((b * r) ^ 2 * (1 / (θ * N))) := by
  have := h.prob
  have hN : (0 : ℝ) < N := by exact_mod_cast NeZero.pos N
  have hle : (N : ℝ≥0∞)⁻¹ ≤ ENNReal.ofReal (1 / (θ * N)) := by
    rw [← ofReal_inv_natCast]
    refine ENNReal.ofReal_le_ofReal (one_div_le_one_div_of_le (by positivity) ?_)
    nlinarith
  have hmax : max (N : ℝ≥0∞)⁻¹ (ENNReal.ofReal (θ * N)⁻¹) = ENNReal.ofReal (1 / (θ * N)) := by
    rw [← one_div (θ * (N : ℝ))]
    exact max_eq_right hle
  have key : ∀ I, Uses R I zeroLogits → UnbiasedWeights P I zeroLogits →
      Concentrates P I zeroLogits (N : ℝ≥0∞)⁻¹ →
      RelativelyAccurateRun rng P mdl (adaptive R θ) dummy u0 us ((b * r) ^ 2 * (1 / (θ * N))) := by
    intro I h1 h2 h3
    have hc := h3.adaptive hθ
    rw [hmax] at hc
    have hf : FirstStep rng.toPrng P (adaptIdx I θ) (adaptLogits zeroLogits θ)
        (8 * ENNReal.ofReal (1 / (θ * N))) := by
      rcases hI with hI | hI
      · refine (firstStep_indep (h2.adaptive θ) hc hI).mono ?_
        calc _ ≤ ENNReal.ofReal (1 / (θ * N)) + 2 * ENNReal.ofReal (1 / (θ * N)) := by gcongr
          _ = 3 * ENNReal.ofReal (1 / (θ * N)) := by ring
          _ ≤ _ := by gcongr; norm_num
      · refine (firstStep_keeps h hI (keepsEqual_adaptive P I zeroLogits hθ1)).mono ?_
        gcongr
        norm_num
    exact relativelyAccurate_of_bounds (uses_adaptive h1 θ) h (h2.adaptive θ) hc hf (r0 := 1 / (θ * N))
      (by positivity) le_rfl le_rfl hr hb h0 hu hq (.inr hd) dummy
  rcases hR with rfl | rfl
  · exact key _ (uses_multinomial rng pf) (unbiasedWeights_multinomial h pf) (concentrates_multinomial h pf)
  · exact key _ (uses_killing rng pf) (unbiasedWeights_killing h pf) (concentrates_killing h pf)

end law

/-! ### A number of particles proportional to the length of the series -/

/-- C117: the relative error of the evidence of a series of length `T` is below `ε` if the number of particles is at
least a constant, which does not depend on the series, times `T + 12`. -/
theorem particles_proportional_to_length [MeasurableSpace K] [MeasurableSpace X] {P : Measure K} {rng : Rng K}
    {mdl : FKModel K X Inp} {r b : ℝ≥0} (h : IdealRng rng P)
    (hI : IndepSplit rng.toPrng P ∨ PrefixSplit rng.toPrng) (pf : Platform) (hr : 1 ≤ r) (hb : 1 ≤ b)
    (h0 : ∀ u, Measurable fun k => mdl.initSample k u) (hu : ∀ u, mdl.Regular u)
    (hq : ∀ u, (mdl.step P u).Forgets r b) (dummy : X) {ε : ℝ} (hε : 0 < ε) {u0 : Inp} {us : List Inp} {N : ℕ} [NeZero N]
    (hN : 2 * (b * r) ^ 2 / Real.log (1 + ε) * (us.length + 12) ≤ N) :
    ∀ R : Resampler K N X, R = multinomial rng pf ∨ R = killing rng pf →
      ∃ S : K → PFState K X Inp N, (∀ k, ∃ l, filter rng.toPrng (particleFilter rng.toPrng mdl dummy N R) (u0 :: us) false
          (some k) = ⟨false, .ok l⟩ ∧ l.getLast? = some (.ok (S k))) ∧
        ∫⁻ k, ENNReal.ofReal (((S k).logZ.lik /
          (fkExp (mdl.init P u0) (us.map (mdl.step P)) fun _ => 1).toReal - 1) ^ 2) ∂P ≤ ENNReal.ofReal ε := by
  intro R hR
  have key : RelativelyAccurateRun rng P mdl R dummy u0 us ((b * r) ^ 2 * (1 / N)) := by
    rcases hR with rfl | rfl
    · exact multinomial_filter_evidence_relative h hI pf hr hb (h0 u0) (fun u _ => hu u) (fun u _ => hq u) dummy
    · exact killing_filter_evidence_relative h hI pf hr hb (h0 u0) (fun u _ => hu u) (fun u _ => hq u) dummy
  obtain ⟨S, h1, h2⟩ := key
  refine ⟨fun k => S k us.length, fun k => ⟨_, h1 k, ?_⟩, ?_⟩
  · simp [List.range_succ]
  · have h3 := (h2 us.length le_rfl _ rfl).2.2
    rw [List.take_length] at h3
    refine h3.trans (ENNReal.ofReal_le_ofReal ?_)
    have hNp : (0 : ℝ) < N := by exact_mod_cast NeZero.pos N
    have hl : 0 < Real.log (1 + ε) := Real.log_pos (by linarith)
    rw [sub_le_iff_le_add, add_comm ε 1, ← Real.le_log_iff_exp_le (by linarith)]
    rw [div_mul_eq_mul_div, div_le_iff₀ hl] at hN
    rw [show 2 * ((us.length : ℝ) + 12) * (((b : ℝ) * r) ^ 2 * (1 / N)) = 2 * (b * r) ^ 2 * (us.length + 12) / N by ring,
      div_le_iff₀ hNp]
    linarith

/-- The hypotheses of C117 are met by ideal keys that split by prefix. -/
example : ∃ rng : Rng Key, PrefixSplit rng.toPrng ∧ ∃ v : ℝ, ∀ (u0 : ℝ) (us : List ℝ),
    RelativelyAccurateRun (N := 50) rng keyLaw (restartModel rng) (multinomial rng .cpu) 0 u0 us v := by
  obtain ⟨rng, h1, h2⟩ := exists_ideal_prefix
  have hone : (1 : ℝ≥0) ≤ 1 / (Real.exp (-1)).toNNReal := one_le_restart
  exact ⟨rng, h2, _, fun u0 us => multinomial_filter_evidence_relative h1 (.inr h2) .cpu (by rw [one_mul]; exact hone) hone
    h1.uniform0.measurable (fun u _ => restartModel_regular h1 u) (fun u _ => restartModel_forgets h1 u) 0⟩

end

end Cuthbert.SMC
