import Verif.Props.ParticleFilter

/-!
# Properties: random keys of the particle filter (C53, C60)
-/

namespace Cuthbert.SMC
open MeasureTheory Set Resampling Spec
open scoped ENNReal

noncomputable section

variable {K X Inp : Type} {N : ℕ}

/-! ## C53: a counterexample -/

/-- A fair coin. -/
def coin (rng : Rng K) (k : K) : Bool := decide (rng.uniform0 k < 1 / 2)

/-- Independent fair coins; the evidence of a step is the probability that two coins agree. -/
def coinModel (rng : Rng K) : FKModel K Bool Unit where
  initSample k _ := coin rng k
  propagate k _ _ := coin rng k
  logPotential x x' _ := if x = x' then 0 else Fl.ninf

/-- Three independent keys. -/
theorem lintegral_pi_three {Ω : Type*} [MeasurableSpace Ω] (μ : Measure Ω) [IsProbabilityMeasure μ]
    {F : (Fin 3 → Ω) → ℝ≥0∞} (hF : Measurable F) :
    ∫⁻ x, F x ∂(Measure.pi fun _ => μ) = ∫⁻ a, ∫⁻ b, ∫⁻ c, F ![a, b, c] ∂μ ∂μ ∂μ := by
  have h1 : ∀ a, Measurable fun y : Fin 2 → Ω => F (Fin.cons a y) := fun a =>
    hF.comp (measurable_cons.comp (measurable_const.prodMk measurable_id))
  have h2 : ∀ a b, Measurable fun y : Fin 1 → Ω => F (Fin.cons a (Fin.cons b y)) := fun a b =>
    (h1 a).comp (measurable_cons.comp (measurable_const.prodMk measurable_id))
  rw [lintegral_pi_cons μ hF]
  refine lintegral_congr fun a => ?_
  rw [lintegral_pi_cons μ (h1 a)]
  refine lintegral_congr fun b => ?_
  rw [lintegral_pi_cons μ (h2 a b)]
  refine lintegral_congr fun c => ?_
  rw [Measure.pi_of_empty _ (fun i => i.elim0), lintegral_dirac]
  congr 1

section

variable [MeasurableSpace K] {rng : Rng K} {P : Measure K} (h : IdealRng rng P)

include h

theorem measurable_coin : Measurable (coin rng) := by
  refine measurable_to_bool ?_
  have h1 : coin rng ⁻¹' {true} = rng.uniform0 ⁻¹' Iio (1 / 2) := by
    ext k
    simp [coin]
  rw [h1]
  exact h.uniform0.measurable measurableSet_Iio

theorem coin_true : P {k | coin rng k = true} = 2⁻¹ := by
  have h1 : {k | coin rng k = true} = rng.uniform0 ⁻¹' Iio (1 / 2) := by
    ext k
    simp [coin]
  have h2 : Iio (1 / 2 : ℝ) ∩ Ico 0 1 = Ico 0 (1 / 2) := by
    ext x
    simp only [mem_inter_iff, mem_Iio, mem_Ico]
    constructor
    · rintro ⟨a, b, c⟩
      exact ⟨b, a⟩
    · rintro ⟨a, b⟩
      exact ⟨b, a, by linarith⟩
  rw [h1, h.uniform0.measure_preimage measurableSet_Iio.nullMeasurableSet, unif,
    Measure.restrict_apply measurableSet_Iio, h2, Real.volume_Ico, sub_zero, one_div,
    ENNReal.ofReal_inv_of_pos (by norm_num)]
  simp

theorem coin_law (y : Bool) : ∫⁻ k, (if y = coin rng k then 1 else 0 : ℝ≥0∞) ∂P = 2⁻¹ := by
  have := h.prob
  have hm : MeasurableSet {k | coin rng k = true} :=
    (measurable_coin h) (measurableSet_singleton true)
  have h1 : ∀ y, ∫⁻ k, (if y = coin rng k then 1 else 0 : ℝ≥0∞) ∂P = P {k | coin rng k = y} := by
    intro y
    have hy : MeasurableSet {k | coin rng k = y} := (measurable_coin h) (measurableSet_singleton y)
    rw [← lintegral_indicator_one hy]
    refine lintegral_congr fun k => ?_
    simp [indicator_apply, eq_comm]
  rw [h1]
  cases y with
  | true => exact coin_true h
  | false =>
    have h2 : {k | coin rng k = false} = {k | coin rng k = true}ᶜ := by
      ext k
      simp
    rw [h2, prob_compl_eq_one_sub hm, coin_true h, ENNReal.one_sub_inv_two]

/-- The evidence of one step is one half. -/
theorem coin_evidence : fkExp ((coinModel rng).init P ()) [(coinModel rng).step P ()] (fun _ => 1) = 2⁻¹ := by
  have := h.prob
  have h1 : ∀ x, fkPathExp [(coinModel rng).step P ()] (fun _ => 1) x = 2⁻¹ := by
    intro x
    simp only [fkPathExp, FKModel.step, mul_one]
    change ∫⁻ x' : Bool, _ ∂(P.map (coin rng)) = _
    rw [lintegral_map (measurable_of_finite _) (measurable_coin h), ← coin_law h x]
    refine lintegral_congr fun k => ?_
    simp only [coinModel]
    split_ifs
    · simp [Fl.lik]
    · simp [Fl.lik]
  simp only [fkExp, h1]
  rw [lintegral_const]
  change _ * (P.map (coin rng)) univ = _
  rw [Measure.map_apply (measurable_coin h) MeasurableSet.univ, preimage_univ, measure_univ, mul_one]

/-- The estimate of one step, for indices that are uniform. -/
theorem coin_estimate (hp : PrefixSplit rng.toPrng) {I : K → (Fin 2 → Fl) → Fin 2 → Fin 2}
    (hI : Measurable fun k => I k fun _ => 0)
    (hlaw : ∀ G : Fin 2 → ℝ≥0∞, ∫⁻ k, G (I k (fun _ => 0) 0) ∂P = 2⁻¹ * G 0 + 2⁻¹ * G 1) :
    ∫⁻ k, ENNReal.ofReal (pfRun rng.toPrng (coinModel rng) I zeroLogits () [()] k 1).logZ.lik ∂P =
      5 / 8 := by
  have := h.prob
  obtain ⟨J, hJ⟩ : ∃ J : K → Fin 2 → Fin 2, J = fun k => I k fun _ => 0 := ⟨_, rfl⟩
  -- the estimate in terms of the three keys
  obtain ⟨F, hF⟩ : ∃ F : (Fin 3 → K) → ℝ≥0∞, F = fun a => 2⁻¹ *
    ((if coin rng (a (J (a 0) 0).castSucc) = coin rng (a 1) then 1 else 0) +
     (if coin rng (a (J (a 0) 1).castSucc) = coin rng (a 2) then 1 else 0)) := ⟨_, rfl⟩
  have h1 : ∀ k, ENNReal.ofReal (pfRun rng.toPrng (coinModel rng) I zeroLogits () [()] k 1).logZ.lik =
      F (rng.nth (rng.nth k 2 0) 3) := by
    intro k
    rw [pfRun_succ () [()] k 0 (by simp), pfRun_zero]
    obtain ⟨a, ha⟩ : ∃ a, a = rng.nth (rng.nth k 2 0) 3 := ⟨_, rfl⟩
    have ha2 : ∀ i : Fin 2, rng.nth (rng.nth k 2 0) 2 i = a i.castSucc := fun i => by
      rw [ha]
      exact hp _ 2 3 i i.2 _
    obtain ⟨lp, hlp⟩ : ∃ lp : Fin 2 → Fl, lp = fun m =>
      if coin rng (a (J (a 0) m).castSucc) = coin rng (a m.succ) then 0 else Fl.ninf := ⟨_, rfl⟩
    have hlog : ∀ m, (lp m).IsLog := by
      intro m
      rw [hlp]
      dsimp only
      split_ifs <;> trivial
    have h2 : (stepTo rng.toPrng (coinModel rng) I zeroLogits
        (pfInit rng.toPrng (coinModel rng) 2 () (rng.nth k 2 0)) () (rng.nth k 2 1)).logZ =
        Fl.logsumexp lp - Fl.fin (Real.log 2) + 0 := by
      have h3 := logsumexp_zero (N := 2)
      have h4 : Fl.logsumexp (fun _ : Fin 2 => (0 : Fl)) = Fl.fin (Real.log 2) := by simpa using h3
      rw [← h4, hlp, hJ]
      simp only [stepTo, coreStep, pfInit, PFState.core, coinModel, zeroLogits, ha2, ← ha, add_zero]
      rfl
    rw [hF]
    have h5 : 0 ≤ ∑ m, (lp m).lik := Finset.sum_nonneg fun m _ => Fl.lik_nonneg _
    change ENNReal.ofReal (stepTo rng.toPrng (coinModel rng) I zeroLogits
        (pfInit rng.toPrng (coinModel rng) 2 () (rng.nth k 2 0)) () (rng.nth k 2 1)).logZ.lik = _
    rw [h2, add_zero, Fl.logsumexp_isLog hlog, Fl.lik_sub_fin (Fl.isLog_log h5), Fl.lik_log h5,
      Real.exp_log (by norm_num), Fin.sum_univ_two, ← ha]
    have h6 : ∀ m, ENNReal.ofReal (lp m).lik =
        if coin rng (a (J (a 0) m).castSucc) = coin rng (a m.succ) then 1 else 0 := by
      intro m
      rw [hlp]
      dsimp only
      split_ifs
      · simp [Fl.lik]
      · simp [Fl.lik]
    rw [div_eq_inv_mul, ENNReal.ofReal_mul (by norm_num), ENNReal.ofReal_add (Fl.lik_nonneg _) (Fl.lik_nonneg _),
      h6, h6, ENNReal.ofReal_inv_of_pos (by norm_num)]
    simp
  have hFm : Measurable F := by
    have hm0 : Measurable fun a : Fin 3 → K => (J (a 0), fun i => coin rng (a i)) := by
      refine Measurable.prodMk ?_ (measurable_pi_iff.mpr fun i =>
        (measurable_coin h).comp (measurable_pi_apply i))
      rw [hJ]
      exact hI.comp (measurable_pi_apply 0)
    have hm1 : Measurable fun q : (Fin 2 → Fin 2) × (Fin 3 → Bool) => (2⁻¹ : ℝ≥0∞) *
      ((if q.2 (q.1 0).castSucc = q.2 1 then 1 else 0) +
       (if q.2 (q.1 1).castSucc = q.2 2 then 1 else 0)) := measurable_of_finite _
    rw [hF]
    exact hm1.comp hm0
  have h2 : MeasurePreserving (fun k => rng.nth (rng.nth k 2 0) 3) P (Measure.pi fun _ => P) :=
    (h.split 3).comp ((measurePreserving_eval (fun _ : Fin 2 => P) 0).comp (h.split 2))
  rw [lintegral_congr h1, h2.lintegral_comp hFm, lintegral_pi_three P hFm]
  have hc : Measurable (coin rng) := measurable_coin h
  have h3 : ∀ (x : Bool), Measurable fun k => (if x = coin rng k then 1 else 0 : ℝ≥0∞) := fun x => by
    have h4 : Measurable fun y : Bool => (if x = y then 1 else 0 : ℝ≥0∞) := measurable_of_finite _
    exact h4.comp hc
  have hadd : ∀ (r : ℝ≥0∞) (x : Bool),
      ∫⁻ k, 2⁻¹ * (r + if x = coin rng k then 1 else 0) ∂P = 2⁻¹ * (r + 2⁻¹) := by
    intro r x
    have hm : Measurable fun k => r + (if x = coin rng k then 1 else 0 : ℝ≥0∞) := measurable_const.add (h3 x)
    rw [lintegral_const_mul _ hm, lintegral_add_left measurable_const, coin_law h, lintegral_const,
      measure_univ, mul_one]
  -- the last key
  have h4 : ∀ a b, ∫⁻ c, F ![a, b, c] ∂P = 2⁻¹ *
      ((if coin rng (![a, b] (J a 0)) = coin rng b then 1 else 0) + 2⁻¹) := by
    intro a b
    have h5 : ∀ c, F ![a, b, c] = 2⁻¹ * ((if coin rng (![a, b] (J a 0)) = coin rng b then 1 else 0) +
        (if coin rng (![a, b] (J a 1)) = coin rng c then 1 else 0)) := by
      intro c
      have h6 : ∀ i : Fin 2, (![a, b, c] : Fin 3 → K) i.castSucc = ![a, b] i := by
        intro i
        fin_cases i <;> rfl
      rw [hF]
      simp only [h6]
      rfl
    simp only [h5, hadd]
  -- the second key
  have h5 : ∀ a, ∫⁻ b, ∫⁻ c, F ![a, b, c] ∂P ∂P =
      if J a 0 = 0 then 2⁻¹ * (2⁻¹ + 2⁻¹) else 2⁻¹ * (1 + 2⁻¹) := by
    intro a
    simp only [h4]
    by_cases hj : J a 0 = 0
    · simp only [hj, if_true, Matrix.cons_val_zero]
      simp only [add_comm _ (2⁻¹ : ℝ≥0∞), hadd]
    · have hj1 : J a 0 = 1 := by omega
      simp only [hj1, Matrix.cons_val_one, Matrix.cons_val_fin_one, if_true]
      rw [lintegral_const, measure_univ, mul_one]
      simp
  simp only [h5]
  have h6 := hlaw fun i => if i = 0 then 2⁻¹ * (2⁻¹ + 2⁻¹) else 2⁻¹ * (1 + 2⁻¹)
  rw [hJ]
  rw [h6]
  have e1 : (2⁻¹ : ℝ≥0∞) = ENNReal.ofReal (1 / 2) := by
    rw [one_div, ENNReal.ofReal_inv_of_pos (by norm_num)]
    simp
  have e2 : (5 / 8 : ℝ≥0∞) = ENNReal.ofReal (5 / 8) := by
    rw [ENNReal.ofReal_div_of_pos (by norm_num)]
    simp
  rw [if_pos rfl, if_neg (by decide), e1, e2, ← ENNReal.ofReal_one, ← ENNReal.ofReal_add (by norm_num) (by norm_num),
    ← ENNReal.ofReal_add (by norm_num) (by norm_num), ← ENNReal.ofReal_mul (by norm_num),
    ← ENNReal.ofReal_mul (by norm_num), ← ENNReal.ofReal_mul (by norm_num),
    ← ENNReal.ofReal_mul (by norm_num), ← ENNReal.ofReal_add (by norm_num) (by norm_num)]
  norm_num

attribute [local irreducible] multinomialIdx in
/-- C53 is false for every ideal generator with prefix splitting, such as JAX's default one: two
particles and multinomial resampling, independent fair coins. The evidence of the first step is
`1/2`; the expectation of its estimate is `5/8`, because the key that draws the initial particle `1`
also propagates particle `0`. -/
theorem particle_filter_biased (hp : PrefixSplit rng.toPrng) (pf : Platform) (dummy : Bool) :
    ∃ S : K → ℕ → PFState K Bool Unit 2,
      (∀ k, filter rng.toPrng (particleFilter rng.toPrng (coinModel rng) dummy 2 (multinomial rng pf))
        [(), ()] false (some k) = ⟨false, .ok [.ok (S k 0), .ok (S k 1)]⟩) ∧
      ∫⁻ k, ENNReal.ofReal (S k 1).logZ.lik ∂P = 5 / 8 ∧
      fkExp ((coinModel rng).init P ()) [(coinModel rng).step P ()] (fun _ => 1) = 1 / 2 := by
  refine ⟨fun k => pfRun rng.toPrng (coinModel rng) _ _ () [()] k,
    fun k => filter_pf_eq (uses_multinomial rng pf) dummy () [()] k, coin_estimate h hp ?_ ?_, ?_⟩
  · exact (measurable_multinomialIdx h pf).comp (measurable_id.prodMk measurable_const)
  · intro G
    rw [multinomialIdx_slot h pf isLogits_zero 0 G, Fin.sum_univ_two]
    simp only [nw_zero]
    rw [ENNReal.ofReal_inv_of_pos (by norm_num)]
    simp
  · rw [coin_evidence h, one_div]

end

end

end Cuthbert.SMC
