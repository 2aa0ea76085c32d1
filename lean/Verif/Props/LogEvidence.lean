import Verif.Props.ParticleFilter

/-!
# The log evidence that a particle filter reports is, on average, too small (C107)
-/

namespace Cuthbert.SMC
open MeasureTheory Set Resampling Spec
open scoped ENNReal

noncomputable section

variable {K X Inp : Type} {N : ℕ} [MeasurableSpace K] [MeasurableSpace X] {P : Measure K} {rng : Rng K}
  {mdl : FKModel K X Inp}

/-- By how much the value `l` exceeds `z`. -/
def excess (z : ℝ) : Fl → ℝ≥0∞
  | .fin l => ENNReal.ofReal (l - z)
  | _ => 0

/-- By how much the value `l` falls short of `z`; infinite for `-∞`. -/
def shortfall (z : ℝ) : Fl → ℝ≥0∞
  | .fin l => ENNReal.ofReal (z - l)
  | _ => ∞

/-- `exp(l) / exp(z)` -/
def ratio (z : ℝ) (l : Fl) : ℝ≥0∞ := ENNReal.ofReal (Real.exp (-z)) * ENNReal.ofReal l.lik

theorem ratio_fin (z l : ℝ) : ratio z (.fin l) = ENNReal.ofReal (Real.exp (l - z)) := by
  rw [ratio, Fl.lik, ← ENNReal.ofReal_mul (Real.exp_nonneg _), ← Real.exp_add]
  congr 2
  ring

theorem excess_le (z : ℝ) (l : Fl) : excess z l + 1 ≤ ratio z l + shortfall z l := by
  cases l with
  | fin l =>
    rw [ratio_fin, excess, shortfall]
    have h := Real.add_one_le_exp (l - z)
    rcases le_total z l with hz | hz
    · rw [ENNReal.ofReal_of_nonpos (by linarith : z - l ≤ 0), add_zero, ← ENNReal.ofReal_one,
        ← ENNReal.ofReal_add (by linarith) zero_le_one]
      exact ENNReal.ofReal_le_ofReal h
    · rw [ENNReal.ofReal_of_nonpos (by linarith : l - z ≤ 0), zero_add, ← ENNReal.ofReal_one,
        ← ENNReal.ofReal_add (Real.exp_nonneg _) (by linarith)]
      exact ENNReal.ofReal_le_ofReal (by linarith)
  | ninf => simp [shortfall]
  | pinf => simp [shortfall]
  | nan => simp [shortfall]

theorem excess_lt (z : ℝ) (l : Fl) (h : l ≠ .fin z) (hs : shortfall z l ≠ ∞) : excess z l + 1 < ratio z l + shortfall z l := by
  cases l with
  | fin l =>
    have hne : l - z ≠ 0 := fun e => h (by rw [sub_eq_zero.mp e])
    rw [ratio_fin, excess, shortfall]
    have h := Real.add_one_lt_exp hne
    rcases le_total z l with hz | hz
    · rw [ENNReal.ofReal_of_nonpos (by linarith : z - l ≤ 0), add_zero, ← ENNReal.ofReal_one,
        ← ENNReal.ofReal_add (by linarith) zero_le_one]
      exact (ENNReal.ofReal_lt_ofReal_iff (Real.exp_pos _)).2 h
    · rw [ENNReal.ofReal_of_nonpos (by linarith : l - z ≤ 0), zero_add, ← ENNReal.ofReal_one,
        ← ENNReal.ofReal_add (Real.exp_nonneg _) (by linarith)]
      exact (ENNReal.ofReal_lt_ofReal_iff (by linarith [Real.exp_pos (l - z)])).2 (by linarith)
  | ninf => exact absurd rfl hs
  | pinf => exact absurd rfl hs
  | nan => exact absurd rfl hs

/-- The facts about any random value whose likelihood has expectation `exp z`. -/
theorem log_bias [IsProbabilityMeasure P] {ℓ : K → Fl} {z : ℝ} (hm : Measurable fun k => ENNReal.ofReal (ℓ k).lik)
    (hE : ∫⁻ k, ENNReal.ofReal (ℓ k).lik ∂P = ENNReal.ofReal (Real.exp z)) :
    (∀ a : ℝ, P {k | ∃ l, ℓ k = .fin l ∧ z + a ≤ l} ≤ ENNReal.ofReal (Real.exp (-a))) ∧
      ∫⁻ k, excess z (ℓ k) ∂P ≤ ∫⁻ k, shortfall z (ℓ k) ∂P ∧
      (∫⁻ k, shortfall z (ℓ k) ∂P ≠ ∞ → ¬ (∀ᵐ k ∂P, ℓ k = .fin z) →
        ∫⁻ k, excess z (ℓ k) ∂P < ∫⁻ k, shortfall z (ℓ k) ∂P) := by
  have hr : Measurable fun k => ratio z (ℓ k) := hm.const_mul _
  have hr1 : ∫⁻ k, ratio z (ℓ k) ∂P = 1 := by
    unfold ratio
    rw [lintegral_const_mul _ hm, hE, ← ENNReal.ofReal_mul (Real.exp_nonneg _), ← Real.exp_add]
    simp
  -- the two parts are functions of the ratio
  have hexc : ∀ l : Fl, excess z l = ENNReal.ofReal (Real.log (ratio z l).toReal) := fun l => by
    cases l with
    | fin l => rw [ratio_fin, ENNReal.toReal_ofReal (Real.exp_nonneg _), Real.log_exp]; rfl
    | ninf => simp [excess, ratio, Fl.lik]
    | pinf => simp [excess, ratio, Fl.lik]
    | nan => simp [excess, ratio, Fl.lik]
  have hshc : ∀ l : Fl, shortfall z l = if ratio z l = 0 then ∞ else ENNReal.ofReal (-Real.log (ratio z l).toReal) :=
    fun l => by
    cases l with
    | fin l =>
      have h0 : ENNReal.ofReal (Real.exp (l - z)) ≠ 0 := by
        rw [ne_eq, ENNReal.ofReal_eq_zero, not_le]
        exact Real.exp_pos _
      rw [ratio_fin, if_neg h0, ENNReal.toReal_ofReal (Real.exp_nonneg _), Real.log_exp, neg_sub]
      rfl
    | ninf => simp [shortfall, ratio, Fl.lik]
    | pinf => simp [shortfall, ratio, Fl.lik]
    | nan => simp [shortfall, ratio, Fl.lik]
  have mex : Measurable fun k => excess z (ℓ k) := by
    simp only [hexc]
    exact ENNReal.measurable_ofReal.comp (Real.measurable_log.comp (ENNReal.measurable_toReal.comp hr))
  have msh : Measurable fun k => shortfall z (ℓ k) := by
    simp only [hshc]
    exact Measurable.ite (hr (measurableSet_singleton 0)) measurable_const
      (ENNReal.measurable_ofReal.comp (Real.measurable_log.comp (ENNReal.measurable_toReal.comp hr)).neg)
  have hle : ∫⁻ k, (excess z (ℓ k) + 1) ∂P ≤ ∫⁻ k, (ratio z (ℓ k) + shortfall z (ℓ k)) ∂P :=
    lintegral_mono fun k => excess_le z (ℓ k)
  rw [lintegral_add_right _ measurable_const, lintegral_add_left hr, hr1, lintegral_one, measure_univ,
    add_comm (1 : ℝ≥0∞)] at hle
  refine ⟨fun a => ?_, (ENNReal.add_le_add_iff_right ENNReal.one_ne_top).1 hle, fun hfin hne => ?_⟩
  · have hsub : {k | ∃ l, ℓ k = .fin l ∧ z + a ≤ l} ⊆ {k | ENNReal.ofReal (Real.exp a) ≤ ratio z (ℓ k)} := by
      rintro k ⟨l, hl, hal⟩
      rw [Set.mem_ofPred_eq, hl, ratio_fin]
      exact ENNReal.ofReal_le_ofReal (Real.exp_le_exp.2 (by linarith))
    have hM := mul_meas_ge_le_lintegral (μ := P) hr (ENNReal.ofReal (Real.exp a))
    rw [hr1] at hM
    have h2 := mul_le_mul_right hM (ENNReal.ofReal (Real.exp (-a)))
    rw [← mul_assoc, ← ENNReal.ofReal_mul (Real.exp_nonneg _), ← Real.exp_add, neg_add_cancel, Real.exp_zero,
      ENNReal.ofReal_one, one_mul, mul_one] at h2
    exact (measure_mono hsub).trans h2
  · have hs : ∀ᵐ k ∂P, shortfall z (ℓ k) < ∞ := ae_lt_top msh hfin
    have hlt : ∫⁻ k, (excess z (ℓ k) + 1) ∂P < ∫⁻ k, (ratio z (ℓ k) + shortfall z (ℓ k)) ∂P := by
      refine lt_of_le_of_ne (lintegral_mono fun k => excess_le z (ℓ k)) fun e => hne ?_
      have hfin' : ∫⁻ k, (excess z (ℓ k) + 1) ∂P ≠ ∞ := by
        rw [e, lintegral_add_left hr, hr1]
        exact ENNReal.add_ne_top.2 ⟨ENNReal.one_ne_top, hfin⟩
      have hae := ae_eq_of_ae_le_of_lintegral_le (ae_of_all P fun k => excess_le z (ℓ k)) hfin'
        (hr.add msh).aemeasurable e.ge
      filter_upwards [hae, hs] with k hk hk'
      by_contra hc
      exact (excess_lt z (ℓ k) hc hk'.ne).ne hk
    rw [lintegral_add_right _ measurable_const, lintegral_add_left hr, hr1, lintegral_one, measure_univ,
      add_comm (1 : ℝ≥0∞)] at hlt
    exact (ENNReal.add_lt_add_iff_right ENNReal.one_ne_top).1 hlt

/-- **C107.** Let the true log evidence be `z`. The reported one exceeds `z + a` with probability at most `exp(-a)`, however
many particles there are. Its expected excess over `z` is at most its expected shortfall, and smaller unless the filter
reports `z` almost surely or the expected shortfall is infinite. -/
theorem UnbiasedRun.log_evidence [IsProbabilityMeasure P] {R : Resampler K N X} {dummy : X} {u0 : Inp} {us : List Inp}
    (h : UnbiasedRun rng P mdl R dummy u0 us) : ∃ S : K → ℕ → PFState K X Inp N,
    (∀ k, filter rng.toPrng (particleFilter rng.toPrng mdl dummy N R) (u0 :: us) false (some k) =
      ⟨false, .ok ((List.range (us.length + 1)).map fun t => .ok (S k t))⟩) ∧
    ∀ t ≤ us.length, ∀ z : ℝ,
      fkExp (mdl.init P u0) ((us.take t).map (mdl.step P)) (fun _ => 1) = ENNReal.ofReal (Real.exp z) →
      (∀ a : ℝ, P {k | ∃ l, (S k t).logZ = .fin l ∧ z + a ≤ l} ≤ ENNReal.ofReal (Real.exp (-a))) ∧
      ∫⁻ k, excess z (S k t).logZ ∂P ≤ ∫⁻ k, shortfall z (S k t).logZ ∂P ∧
      (∫⁻ k, shortfall z (S k t).logZ ∂P ≠ ∞ → ¬ (∀ᵐ k ∂P, (S k t).logZ = .fin z) →
        ∫⁻ k, excess z (S k t).logZ ∂P < ∫⁻ k, shortfall z (S k t).logZ ∂P) := by
  obtain ⟨S, h1, h2, h3⟩ := h
  refine ⟨S, h1, fun t ht z hz => ?_⟩
  obtain ⟨hm, he⟩ := h3 t ht (fun _ => 1) measurable_const
  have e : ∀ k, pathEst (S k) t (fun _ => 1) = ENNReal.ofReal (S k t).logZ.lik := fun k => by
    rw [pathEst]
    rcases (h2 k t ht).2.2 with h4 | h4
    · simp only [mul_one]
      rw [← ENNReal.ofReal_sum_of_nonneg fun i _ => nw_nonneg _ i, nw_sum h4, ENNReal.ofReal_one, mul_one]
    · rw [h4]
      simp [Fl.lik]
  simp only [e] at hm he
  exact log_bias hm (he.trans hz)

/-- A model whose log potentials are finite and bounded has a finite log evidence at every time. -/
theorem exists_log_evidence [IsProbabilityMeasure P] {u0 : Inp} {us : List Inp} (h0 : Measurable fun k => mdl.initSample k u0)
    (hu : ∀ u ∈ us, mdl.Regular u) {a b : ℝ}
    (hb : ∀ u ∈ us, ∀ x x', ∃ l, mdl.logPotential x x' u = .fin l ∧ a ≤ l ∧ l ≤ b) (t : ℕ) :
    ∃ z, fkExp (mdl.init P u0) ((us.take t).map (mdl.step P)) (fun _ => 1) = ENNReal.ofReal (Real.exp z) := by
  obtain ⟨A, hA⟩ : ∃ A, A = ENNReal.ofReal (Real.exp a) := ⟨_, rfl⟩
  obtain ⟨B, hB⟩ : ∃ B, B = ENNReal.ofReal (Real.exp b) := ⟨_, rfl⟩
  have key : ∀ vs : List Inp, (∀ v ∈ vs, v ∈ us) → ∀ x : X,
      A ^ vs.length ≤ fkPathExp (vs.map (mdl.step P)) (fun _ => 1) x ∧
        fkPathExp (vs.map (mdl.step P)) (fun _ => 1) x ≤ B ^ vs.length := by
    intro vs
    induction vs with
    | nil => intro _ x; simp [fkPathExp]
    | cons v vs ih =>
      intro hv x
      have ih' := ih fun w hw => hv w (List.mem_cons_of_mem _ hw)
      have hvm := hv v List.mem_cons_self
      have hk : IsProbabilityMeasure ((mdl.step P v).kernel x) :=
        Measure.isProbabilityMeasure_map ((hu v hvm).1.comp measurable_prodMk_right).aemeasurable
      have hpot : ∀ x x', A ≤ (mdl.step P v).pot x x' ∧ (mdl.step P v).pot x x' ≤ B := fun x x' => by
        obtain ⟨l, hl, h1, h2⟩ := hb v hvm x x'
        have e : (mdl.step P v).pot x x' = ENNReal.ofReal (Real.exp l) := by
          show ENNReal.ofReal (mdl.logPotential x x' v).lik = _
          rw [hl]
          rfl
        rw [e, hA, hB]
        exact ⟨ENNReal.ofReal_le_ofReal (Real.exp_le_exp.2 h1), ENNReal.ofReal_le_ofReal (Real.exp_le_exp.2 h2)⟩
      constructor
      · calc A ^ (v :: vs).length = ∫⁻ _, A * A ^ vs.length ∂(mdl.step P v).kernel x := by
              rw [lintegral_const, measure_univ, mul_one, List.length_cons, pow_succ']
          _ ≤ _ := lintegral_mono fun x' => mul_le_mul' (hpot x x').1 (ih' x').1
      · calc _ ≤ ∫⁻ _, B * B ^ vs.length ∂(mdl.step P v).kernel x :=
              lintegral_mono fun x' => mul_le_mul' (hpot x x').2 (ih' x').2
          _ = B ^ (v :: vs).length := by
              rw [lintegral_const, measure_univ, mul_one, List.length_cons, pow_succ']
  have hi : IsProbabilityMeasure (mdl.init P u0) := Measure.isProbabilityMeasure_map h0.aemeasurable
  have k := key (us.take t) fun v hv => List.mem_of_mem_take hv
  have lo : A ^ (us.take t).length ≤ fkExp (mdl.init P u0) ((us.take t).map (mdl.step P)) (fun _ => 1) := by
    calc A ^ (us.take t).length = ∫⁻ _, A ^ (us.take t).length ∂mdl.init P u0 := by
          rw [lintegral_const, measure_univ, mul_one]
      _ ≤ _ := lintegral_mono fun x => (k x).1
  have hi' : fkExp (mdl.init P u0) ((us.take t).map (mdl.step P)) (fun _ => 1) ≤ B ^ (us.take t).length := by
    calc _ ≤ ∫⁻ _, B ^ (us.take t).length ∂mdl.init P u0 := lintegral_mono fun x => (k x).2
      _ = _ := by rw [lintegral_const, measure_univ, mul_one]
  obtain ⟨e, he⟩ : ∃ e, e = fkExp (mdl.init P u0) ((us.take t).map (mdl.step P)) (fun _ => 1) := ⟨_, rfl⟩
  rw [← he] at lo hi' ⊢
  have h1 : e ≠ ∞ := ne_top_of_le_ne_top (ENNReal.pow_ne_top (by rw [hB]; exact ENNReal.ofReal_ne_top)) hi'
  have h2 : 0 < e := (ENNReal.pow_pos (by rw [hA]; exact ENNReal.ofReal_pos.2 (Real.exp_pos _)) _).trans_le lo
  refine ⟨Real.log e.toReal, ?_⟩
  rw [Real.exp_log (ENNReal.toReal_pos h2.ne' h1), ENNReal.ofReal_toReal h1]

/-- Non-vacuity: ideal keys and a random walk on the line that prefers to stay above a moving threshold. -/
example : ∃ rng : Rng Key, ∃ mdl : FKModel Key ℝ ℝ, PrefixSplit rng.toPrng ∧
    UnbiasedRun (N := 5) rng keyLaw mdl (systematic rng .cpu) 0 0 [1, 2, 3] ∧
    ∀ t, ∃ z, fkExp (mdl.init keyLaw 0) (([1, 2, 3].take t).map (mdl.step keyLaw)) (fun _ => 1) =
      ENNReal.ofReal (Real.exp z) := by
  obtain ⟨rng, h1, h2⟩ := exists_ideal_prefix
  have hP := h1.prob
  have hreg : ∀ u : ℝ, FKModel.Regular (⟨fun k _ => rng.uniform0 k, fun k x _ => x + rng.uniform0 k,
      fun _ x' u => .fin (if x' < u then -1 else 0)⟩ : FKModel Key ℝ ℝ) u := fun u =>
    ⟨measurable_snd.add (h1.uniform0.measurable.comp measurable_fst),
      Fl.measurable_fin.comp (Measurable.ite (measurableSet_lt measurable_snd measurable_const) measurable_const
        measurable_const), fun _ _ => trivial⟩
  refine ⟨rng, _, h2, systematic_filter_unbiased (N := 5) (us := [1, 2, 3]) h1 (.inr h2) .cpu (u0 := 0)
    h1.uniform0.measurable (fun u _ => hreg u) 0, fun t => exists_log_evidence h1.uniform0.measurable (fun u _ => hreg u)
    (a := -1) (b := 0) (fun u _ x x' => ⟨_, rfl, ?_, ?_⟩) t⟩
  · split_ifs <;> norm_num
  · split_ifs <;> norm_num

end

end Cuthbert.SMC
