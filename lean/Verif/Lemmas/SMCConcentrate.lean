import Verif.Lemmas.SMCVariance

/-!
# Resampling with independent slots concentrates, and so does the first step of a run
-/

namespace Cuthbert.SMC
open MeasureTheory Set Resampling
open scoped ENNReal

noncomputable section

attribute [local irreducible] multinomialIdx killingIdx

variable {K : Type} {N : ℕ}

section resamplers

variable [MeasurableSpace K] {P : Measure K}

theorem ofReal_nw_zero [NeZero N] (m : Fin N) :
    ENNReal.ofReal (nw (fun _ : Fin N => (0 : Fl)) m) = (N : ℝ≥0∞)⁻¹ := by
  rw [nw_zero, ENNReal.ofReal_inv_of_pos (by exact_mod_cast NeZero.pos N), ENNReal.ofReal_natCast]

theorem inv_mul_self [NeZero N] : (N : ℝ≥0∞)⁻¹ * (N : ℝ≥0∞) = 1 :=
  ENNReal.inv_mul_cancel (by exact_mod_cast NeZero.ne N) (by simp)

theorem sum_inv_sq [NeZero N] : ∑ _m : Fin N, ((N : ℝ≥0∞)⁻¹) ^ 2 = (N : ℝ≥0∞)⁻¹ := by
  rw [Finset.sum_const, Finset.card_univ, Fintype.card_fin, nsmul_eq_mul, sq, ← mul_assoc, mul_comm (N : ℝ≥0∞),
    inv_mul_self, one_mul]

/-- Independent slots. -/
theorem concentrates_of_slots [IsProbabilityMeasure P] [NeZero N] {I : K → (Fin N → Fl) → Fin N → Fin N}
    (hm : Measurable fun q : K × (Fin N → Fl) => I q.1 q.2) (q : (Fin N → Fl) → Fin N → Fin N → ℝ≥0∞)
    (hq : ∀ l, IsLogits l → ∀ m, ∑ b, q l m b = 1)
    (hmean : ∀ l, IsLogits l → ∀ i, ∑ m, q l m i = N * ENNReal.ofReal (nw l i))
    (hlaw : ∀ l, IsLogits l → ∀ G : (Fin N → Fin N) → ℝ≥0∞,
      ∫⁻ k, G (I k l) ∂P = ∑ a, (∏ m, q l m (a m)) * G a) :
    Concentrates P I zeroLogits (N : ℝ≥0∞)⁻¹ where
  weights l hl k := by
    have h1 : ∀ m, ENNReal.ofReal (nw (zeroLogits k l) m) = (N : ℝ≥0∞)⁻¹ := ofReal_nw_zero
    simp only [h1, sum_inv_sq, le_refl]
  second l hl H C hC := by
    have h1 : ∀ (k : K) m, ENNReal.ofReal (nw (zeroLogits k l) m) = (N : ℝ≥0∞)⁻¹ := fun k => ofReal_nw_zero
    have hidx : ∀ m, Measurable fun k => I k l m := fun m =>
      (measurable_pi_apply m).comp (hm.comp (measurable_id.prodMk measurable_const))
    simp only [h1]
    refine (lintegral_sq_le (μ := P) (fun _ : Fin N => (N : ℝ≥0∞)⁻¹) (fun m => ∑ b, q l m b * H b)
      (T := fun m k => H (I k l m)) (fun m => (measurable_of_finite H).comp (hidx m)) (fun m k => hC _)
      (fun m m' => m ≠ m') fun m m' hne => ?_).trans_eq ?_
    · have h2 := hlaw l hl fun a => H (a m) * H (a m')
      rw [h2, sum_prod_two (hq l hl) hne fun b b' => H b * H b', Finset.sum_mul_sum]
      exact (Finset.sum_congr rfl fun b _ => Finset.sum_congr rfl fun b' _ => by ring).le
    · rw [sum_ne_diag, sum_inv_sq, mul_comm (C ^ 2)]
      congr 2
      rw [← Finset.mul_sum, Finset.sum_comm, Finset.mul_sum]
      refine Finset.sum_congr rfl fun i _ => ?_
      rw [← Finset.sum_mul, hmean l hl i, ← mul_assoc, ← mul_assoc, inv_mul_self, one_mul]

variable {rng : Rng K} [NeZero N]

theorem concentrates_multinomial (h : IdealRng rng P) (pf : Platform) :
    Concentrates P (fun k (l : Fin N → Fl) => multinomialIdx rng pf l N k) zeroLogits (N : ℝ≥0∞)⁻¹ := by
  have := h.prob
  refine concentrates_of_slots (measurable_multinomialIdx h pf) (fun l _ i => ENNReal.ofReal (nw l i))
    (fun l hl m => ?_) (fun l hl i => ?_) fun l hl G => multinomialIdx_law h pf hl G
  · rw [← ENNReal.ofReal_sum_of_nonneg fun i _ => nw_nonneg l i, nw_sum hl, ENNReal.ofReal_one]
  · simp

theorem concentrates_killing (h : IdealRng rng P) (pf : Platform) :
    Concentrates P (fun k (l : Fin N → Fl) => killingIdx rng pf l k) zeroLogits (N : ℝ≥0∞)⁻¹ := by
  have := h.prob
  refine concentrates_of_slots (measurable_killingIdx h pf) (fun l m i => ENNReal.ofReal (killingSlot l m i))
    (fun l hl m => ?_) (fun l hl i => ?_) fun l hl G => killingIdx_law h pf hl G
  · rw [← ENNReal.ofReal_sum_of_nonneg fun i _ => killingSlot_nonneg hl m i, killingSlot_sum hl, ENNReal.ofReal_one]
  · rw [← ENNReal.ofReal_sum_of_nonneg fun m _ => killingSlot_nonneg hl m i, sum_killingSlot hl,
      ENNReal.ofReal_mul (by positivity), ENNReal.ofReal_natCast]

omit [NeZero N] in
/-- If the effective sample size is at least `r`, the squared weights sum to at most `1 / r`. -/
theorem sum_sq_le_of_logEss {l : Fin N → Fl} (hl : IsLogits l) {r : ℝ} (hr : 0 < r)
    (h : ¬ Fl.ltb (logEss l) (Fl.log (Fl.fin r)) = true) : ∑ m, nw l m ^ 2 ≤ r⁻¹ := by
  have h1 := sum_lik_pos hl
  have h2 := sum_lik_sq_pos hl
  have h4 : 0 < (∑ j, (l j).lik) ^ 2 := pow_pos h1 2
  rw [logEss_eq hl, Fl.log_fin _ hr, Fl.ltb_fin, not_lt, Real.log_le_log_iff hr (div_pos h4 h2),
    le_div_iff₀ h2] at h
  simp only [nw, div_pow, ← Finset.sum_div]
  rw [div_le_iff₀ h4, inv_mul_eq_div, le_div_iff₀ hr]
  linarith

/-- Adaptive resampling with threshold `θ`. -/
theorem Concentrates.adaptive [IsProbabilityMeasure P] {I : K → (Fin N → Fl) → Fin N → Fin N}
    {L : K → (Fin N → Fl) → Fin N → Fl} {κ : ℝ≥0∞} (h : Concentrates P I L κ) {θ : ℝ} (hθ : 0 < θ) :
    Concentrates P (adaptIdx I θ) (adaptLogits L θ) (max κ (ENNReal.ofReal (θ * N)⁻¹)) where
  second l hl H C hC := by
    unfold adaptIdx adaptLogits
    by_cases hc : Fl.ltb (logEss l) (Fl.log (Fl.fin (θ * N))) = true
    · simp only [if_pos hc]
      refine (h.second l hl H C hC).trans ?_
      gcongr
      exact le_max_left _ _
    · simp only [if_neg hc, id]
      rw [lintegral_const, measure_univ, mul_one]
      exact le_self_add
  weights l hl k := by
    unfold adaptLogits
    by_cases hc : Fl.ltb (logEss l) (Fl.log (Fl.fin (θ * N))) = true
    · simp only [if_pos hc]
      exact (h.weights l hl k).trans (le_max_left _ _)
    · simp only [if_neg hc]
      refine le_trans ?_ (le_max_right _ _)
      have hr : 0 < θ * N := mul_pos hθ (by exact_mod_cast NeZero.pos N)
      simp only [← ENNReal.ofReal_pow (nw_nonneg l _)]
      rw [← ENNReal.ofReal_sum_of_nonneg fun m _ => sq_nonneg _]
      exact ENNReal.ofReal_le_ofReal (sum_sq_le_of_logEss hl hr hc)

end resamplers

/-! ### The first step -/

section first

variable [MeasurableSpace K] {P : Measure K} [IsProbabilityMeasure P] {rng : Rng K}
  {I : K → (Fin N → Fl) → Fin N → Fin N} {L : K → (Fin N → Fl) → Fin N → Fl} {κ : ℝ≥0∞}

/-- The expectation of a weighted sum over resampled and propagated particles. -/
theorem lintegral_resampled (hR : UnbiasedWeights P I L) {l : Fin N → Fl} (hl : IsLogits l)
    {w : Fin N → K → ℝ≥0∞} (hw : ∀ i, Measurable (w i)) :
    ∫⁻ ks, ∑ m : Fin N, ENNReal.ofReal (nw (L (ks 0) l) m) * w (I (ks 0) l m) (ks m.succ)
        ∂(Measure.pi fun _ : Fin (N + 1) => P) =
      ∑ i, ENNReal.ofReal (nw l i) * ∫⁻ k, w i k ∂P := by
  have hidx : Measurable fun k => I k l := hR.measurable_idx.comp (measurable_id.prodMk measurable_const)
  have hlog : Measurable fun k => L k l := hR.measurable_logits.comp (measurable_id.prodMk measurable_const)
  have hnw : ∀ m, Measurable fun k => ENNReal.ofReal (nw (L k l) m) := fun m =>
    ENNReal.measurable_ofReal.comp ((measurable_nw m).comp hlog)
  have hw2 : Measurable fun q : Fin N × K => w q.1 q.2 := measurable_from_prod_countable_right hw
  have hterm : Measurable fun ks : Fin (N + 1) → K =>
      ∑ m : Fin N, ENNReal.ofReal (nw (L (ks 0) l) m) * w (I (ks 0) l m) (ks m.succ) := by
    refine Finset.measurable_sum _ fun m _ => ?_
    have h1 : Measurable fun ks : Fin (N + 1) → K => (I (ks 0) l m, ks m.succ) :=
      (((measurable_pi_apply m).comp hidx).comp (measurable_pi_apply 0)).prodMk (measurable_pi_apply m.succ)
    exact ((hnw m).comp (measurable_pi_apply 0)).mul (hw2.comp h1)
  rw [lintegral_pi_cons P hterm]
  simp only [Fin.cons_zero, Fin.cons_succ]
  have h1 : ∀ k, ∫⁻ y : Fin N → K, ∑ m : Fin N, ENNReal.ofReal (nw (L k l) m) * w (I k l m) (y m)
      ∂(Measure.pi fun _ => P) =
      ∑ i, (∑ m, ENNReal.ofReal (nw (L k l) m) * (if I k l m = i then 1 else 0)) * ∫⁻ k', w i k' ∂P := by
    intro k
    have hm : ∀ m : Fin N, Measurable fun y : Fin N → K => w (I k l m) (y m) := fun m =>
      (hw _).comp (measurable_pi_apply m)
    rw [lintegral_finsetSum' _ fun m _ => ((hm m).const_mul _).aemeasurable]
    have h2 : ∀ m : Fin N, ∫⁻ y : Fin N → K, ENNReal.ofReal (nw (L k l) m) * w (I k l m) (y m)
        ∂(Measure.pi fun _ => P) = ∑ i, ENNReal.ofReal (nw (L k l) m) * (if I k l m = i then 1 else 0) *
          ∫⁻ k', w i k' ∂P := by
      intro m
      rw [lintegral_const_mul _ (hm m), (measurePreserving_eval (fun _ : Fin N => P) m).lintegral_comp (hw _),
        Finset.sum_eq_single (I k l m)]
      · simp
      · intro i _ hi
        simp [hi.symm]
      · simp
    simp only [h2]
    rw [Finset.sum_comm]
    simp only [← Finset.sum_mul]
  simp only [h1]
  have h3 : ∀ i, Measurable fun k => ∑ m, ENNReal.ofReal (nw (L k l) m) * (if I k l m = i then (1 : ℝ≥0∞) else 0) := by
    intro i
    refine Finset.measurable_sum _ fun m _ => (hnw m).mul ?_
    exact Measurable.ite (((measurable_pi_apply m).comp hidx) (measurableSet_singleton i)) measurable_const
      measurable_const
  rw [lintegral_finsetSum' _ fun i _ => ((h3 i).mul_const _).aemeasurable]
  refine Finset.sum_congr rfl fun i _ => ?_
  rw [lintegral_mul_const _ (h3 i), hR.unbiased l hl i]

variable [NeZero N]

/-- Splits of different sizes are independent. -/
theorem firstStep_indep (hR : UnbiasedWeights P I L) (hK : Concentrates P I L κ) (hi : IndepSplit rng.toPrng P) :
    FirstStep rng.toPrng P I L ((N : ℝ≥0∞)⁻¹ + 2 * κ) := by
  have hI : ∀ m, Measurable fun k => I k (fun _ => 0) m := fun m => (measurable_pi_apply m).comp
    (hR.measurable_idx.comp (measurable_id.prodMk measurable_const))
  have hL : Measurable fun k => L k fun _ => 0 :=
    hR.measurable_logits.comp (measurable_id.prodMk measurable_const)
  have hF : ∀ h : K × K → ℝ≥0∞, Measurable h → Measurable fun q : (Fin N → K) × (Fin (N + 1) → K) =>
      ∑ m : Fin N, ENNReal.ofReal (nw (L (q.2 0) fun _ => 0) m) *
        h (q.1 (I (q.2 0) (fun _ => 0) m), q.2 m.succ) := by
    intro h hh
    refine Finset.measurable_sum _ fun m _ => ?_
    have h1 : Measurable fun q : (Fin N → K) × (Fin (N + 1) → K) => q.2 0 :=
      (measurable_pi_apply 0).comp measurable_snd
    have h2 : Measurable fun q : (Fin N → K) × (Fin (N + 1) → K) => q.2 m.succ :=
      (measurable_pi_apply m.succ).comp measurable_snd
    have h3 : Measurable fun q : Fin N × (Fin N → K) => q.2 q.1 :=
      measurable_from_prod_countable_right fun i => measurable_pi_apply i
    exact (ENNReal.measurable_ofReal.comp ((measurable_nw m).comp (hL.comp h1))).mul
      (hh.comp ((h3.comp (((hI m).comp h1).prodMk measurable_fst)).prodMk h2))
  have hmp := hi N (N + 1) (by omega)
  refine ⟨fun h hh C hC => ?_, fun h hh C hC => ?_⟩
  · have h1 := hmp.lintegral_comp ((hF h hh).pow_const 2)
    refine (h1.trans_le ?_)
    rw [lintegral_prod _ ((hF h hh).pow_const 2).aemeasurable]
    have h2 : ∀ a : Fin N → K, ∫⁻ ks, (∑ m : Fin N, ENNReal.ofReal (nw (L (ks 0) fun _ => 0) m) *
        h (a (I (ks 0) (fun _ => 0) m), ks m.succ)) ^ 2 ∂(Measure.pi fun _ : Fin (N + 1) => P) ≤
        (∑ i, (N : ℝ≥0∞)⁻¹ * ∫⁻ k, h (a i, k) ∂P) ^ 2 + 2 * κ * C ^ 2 := by
      intro a
      refine (lintegral_sq_resampled hR hK isLogits_zero (w := fun i k => h (a i, k))
        (fun i => hh.comp (measurable_const.prodMk measurable_id)) (C := C) fun i k => hC _).trans_eq ?_
      simp only [ofReal_nw_zero]
    refine (lintegral_mono h2).trans ?_
    rw [lintegral_add_right _ measurable_const, lintegral_const, measure_univ, mul_one]
    have h3 := lintegral_sq_indep P (fun _ : Fin N => (N : ℝ≥0∞)⁻¹) (g := fun _ x => ∫⁻ k, h (x, k) ∂P)
      (fun _ => hh.lintegral_prod_right') (C := C) fun _ x =>
        (lintegral_mono fun k => hC _).trans_eq (by rw [lintegral_const, measure_univ, mul_one])
    rw [sum_inv_sq] at h3
    have h4 : ∑ _m : Fin N, (N : ℝ≥0∞)⁻¹ * ∫⁻ x, ∫⁻ k, h (x, k) ∂P ∂P = ∫⁻ q, h q ∂P.prod P := by
      rw [Finset.sum_const, Finset.card_univ, Fintype.card_fin, nsmul_eq_mul, ← mul_assoc, mul_comm (N : ℝ≥0∞),
        inv_mul_self, one_mul, lintegral_prod _ hh.aemeasurable]
    rw [h4] at h3
    calc _ ≤ (∫⁻ q, h q ∂P.prod P) ^ 2 + C ^ 2 * (N : ℝ≥0∞)⁻¹ + 2 * κ * C ^ 2 := by gcongr
      _ = _ := by ring
  · refine le_add_right ?_
    have h1 := hmp.lintegral_comp (hF h hh)
    refine le_of_eq (Eq.trans ?_ h1.symm)
    rw [lintegral_prod _ (hF h hh).aemeasurable]
    have h2 : ∀ a : Fin N → K, ∫⁻ ks, (∑ m : Fin N, ENNReal.ofReal (nw (L (ks 0) fun _ => 0) m) *
        h (a (I (ks 0) (fun _ => 0) m), ks m.succ)) ∂(Measure.pi fun _ : Fin (N + 1) => P) =
        ∑ i, (N : ℝ≥0∞)⁻¹ * ∫⁻ k, h (a i, k) ∂P := by
      intro a
      refine (lintegral_resampled hR isLogits_zero (w := fun i k => h (a i, k))
        (fun i => hh.comp (measurable_const.prodMk measurable_id))).trans ?_
      simp only [ofReal_nw_zero]
    simp only [h2]
    have h3 : ∀ i : Fin N, Measurable fun a : Fin N → K => ∫⁻ k, h (a i, k) ∂P := fun i =>
      (hh.lintegral_prod_right' (ν := P)).comp (measurable_pi_apply i)
    rw [lintegral_finsetSum' _ fun i _ => ((h3 i).const_mul _).aemeasurable]
    simp only [lintegral_const_mul _ (h3 _)]
    have h4 : ∀ i : Fin N, ∫⁻ a : Fin N → K, ∫⁻ k, h (a i, k) ∂P ∂(Measure.pi fun _ => P) =
        ∫⁻ x, ∫⁻ k, h (x, k) ∂P ∂P := fun i =>
      (measurePreserving_eval (fun _ : Fin N => P) i).lintegral_comp (hh.lintegral_prod_right' (ν := P))
    simp only [h4]
    rw [Finset.sum_const, Finset.card_univ, Fintype.card_fin, nsmul_eq_mul, ← mul_assoc, mul_comm (N : ℝ≥0∞),
      inv_mul_self, one_mul, lintegral_prod _ hh.aemeasurable]

theorem sum_ite_le {α ι : Type*} [Fintype ι] [DecidableEq α] {g : ι → α} (hg : Function.Injective g) (x : α) :
    ∑ m, (if g m = x then (1 : ℝ≥0∞) else 0) ≤ 1 := by
  classical
  by_cases h : ∃ m, g m = x
  · obtain ⟨m, hm⟩ := h
    rw [Finset.sum_eq_single m]
    · simp [hm]
    · intro m' _ hne
      rw [if_neg fun h => hne (hg (h.trans hm.symm))]
    · simp
  · rw [Finset.sum_eq_zero fun m _ => if_neg fun hm => h ⟨m, hm⟩]
    exact zero_le

theorem sum_inv_mul (x : ℝ≥0∞) : ∑ _m : Fin N, (N : ℝ≥0∞)⁻¹ * x = x := by
  rw [Finset.sum_const, Finset.card_univ, Fintype.card_fin, nsmul_eq_mul, ← mul_assoc, mul_comm (N : ℝ≥0∞),
    inv_mul_self, one_mul]

/-- A split is a prefix of a larger split, and resampling keeps equally weighted particles. -/
theorem firstStep_keeps (h : IdealRng rng P) (hp : PrefixSplit rng.toPrng) (hk : KeepsEqual P I L) :
    FirstStep rng.toPrng P I L (3 * (N : ℝ≥0∞)⁻¹) := by
  have hN : ENNReal.ofReal (N : ℝ)⁻¹ = (N : ℝ≥0∞)⁻¹ := by
    rw [ENNReal.ofReal_inv_of_pos (by exact_mod_cast NeZero.pos N), ENNReal.ofReal_natCast]
  have h0 : ∀ᵐ k ∂P, ∀ f : K × K → ℝ≥0∞, firstAvg rng.toPrng I L f k =
      ∑ m : Fin N, (N : ℝ≥0∞)⁻¹ * f (rng.nth k (N + 1) m.castSucc, rng.nth k (N + 1) m.succ) := by
    have h1 := ((measurePreserving_eval (fun _ : Fin (N + 1) => P) 0).comp
      (h.split (N + 1))).quasiMeasurePreserving.ae hk
    filter_upwards [h1] with k h2 f
    unfold firstAvg
    refine Finset.sum_congr rfl fun m _ => ?_
    have h3 := h2 m
    simp only [Function.comp_apply, Function.eval] at h3
    rw [h3.1, h3.2, hN, hp k N (N + 1) m m.2 (by omega)]
    rfl
  have hne : ∀ m : Fin N, m.castSucc ≠ m.succ := fun m h2 => by
    have := congrArg Fin.val h2
    simp at this
  refine ⟨fun f hf C hC => ?_, fun f hf C hC => ?_⟩
  · have hT : ∀ m : Fin N, Measurable fun ks : Fin (N + 1) → K => f (ks m.castSucc, ks m.succ) := fun m =>
      hf.comp ((measurable_pi_apply _).prodMk (measurable_pi_apply _))
    have h1 : ∫⁻ k, firstAvg rng.toPrng I L f k ^ 2 ∂P =
        ∫⁻ ks, (∑ m : Fin N, (N : ℝ≥0∞)⁻¹ * f (ks m.castSucc, ks m.succ)) ^ 2
          ∂(Measure.pi fun _ : Fin (N + 1) => P) := by
      rw [← (h.split (N + 1)).lintegral_comp
        ((Finset.measurable_sum _ fun m _ => (hT m).const_mul (N : ℝ≥0∞)⁻¹).pow_const 2)]
      exact lintegral_congr_ae (h0.mono fun k hk => by simp only [hk f])
    rw [h1]
    refine (lintegral_sq_le (μ := Measure.pi fun _ : Fin (N + 1) => P) (fun _ : Fin N => (N : ℝ≥0∞)⁻¹)
      (fun _ => ∫⁻ q, f q ∂P.prod P) hT (fun m w => hC _)
      (fun m m' => m ≠ m' ∧ m'.succ ≠ m.castSucc ∧ m'.castSucc ≠ m.succ) fun m m' hr => ?_).trans ?_
    · refine (lintegral_four P (hne m) (fun h2 => hr.1 ?_) hr.2.1.symm hr.2.2.symm (fun h2 => hr.1 ?_) (hne m')
        hf).le
      · exact Fin.castSucc_injective _ h2
      · exact Fin.succ_injective _ h2
    · rw [sum_inv_mul, mul_comm (C ^ 2)]
      refine add_le_add le_rfl (mul_le_mul_left ?_ _)
      calc _ ≤ ∑ m : Fin N, ∑ m' : Fin N, (N : ℝ≥0∞)⁻¹ * ((N : ℝ≥0∞)⁻¹ * ((if m' = m then 1 else 0) +
              (if m'.succ = m.castSucc then 1 else 0) + if m'.castSucc = m.succ then 1 else 0)) := by
            refine Finset.sum_le_sum fun m _ => Finset.sum_le_sum fun m' _ => ?_
            by_cases h2 : m ≠ m' ∧ m'.succ ≠ m.castSucc ∧ m'.castSucc ≠ m.succ
            · rw [if_pos h2]
              exact zero_le
            rw [if_neg h2, ← mul_assoc]
            refine le_mul_of_one_le_right' ?_
            by_contra hlt
            refine h2 ⟨fun hc => hlt ?_, fun hc => hlt ?_, fun hc => hlt ?_⟩
            · simp only [if_pos hc.symm]
              repeat first | exact le_rfl | exact le_add_self | refine le_add_right ?_
            · simp only [if_pos hc]
              repeat first | exact le_rfl | exact le_add_self | refine le_add_right ?_
            · simp only [if_pos hc]
              repeat first | exact le_rfl | exact le_add_self | refine le_add_right ?_
        _ ≤ ∑ _m : Fin N, (N : ℝ≥0∞)⁻¹ * ((N : ℝ≥0∞)⁻¹ * 3) := by
            refine Finset.sum_le_sum fun m _ => ?_
            rw [← Finset.mul_sum, ← Finset.mul_sum]
            gcongr
            rw [Finset.sum_add_distrib, Finset.sum_add_distrib]
            calc _ ≤ (1 : ℝ≥0∞) + 1 + 1 := add_le_add (add_le_add (sum_ite_le Function.injective_id _)
                  (sum_ite_le (Fin.succ_injective _) _)) (sum_ite_le (Fin.castSucc_injective _) _)
              _ = 3 := by norm_num
        _ = 3 * (N : ℝ≥0∞)⁻¹ := by rw [sum_inv_mul, mul_comm]
  · refine le_add_right (le_of_eq ?_)
    have h1 : ∫⁻ k, firstAvg rng.toPrng I L f k ∂P =
        ∫⁻ k, ∑ m : Fin N, (N : ℝ≥0∞)⁻¹ * f (rng.nth k N m, rng.nth k (N + 1) m.succ) ∂P := by
      refine lintegral_congr_ae (h0.mono fun k hk => ?_)
      simp only [hk f]
      refine Finset.sum_congr rfl fun m _ => ?_
      rw [hp k N (N + 1) m m.2 (by omega)]
      rfl
    have h2 : ∀ m : Fin N, Measurable fun k => f (rng.nth k N m, rng.nth k (N + 1) m.succ) := fun m =>
      hf.comp (pair_of_prefix h hp m).measurable
    rw [h1, lintegral_finsetSum' _ fun m _ => ((h2 m).const_mul _).aemeasurable]
    simp only [lintegral_const_mul _ (h2 _)]
    have h3 : ∀ m : Fin N, ∫⁻ k, f (rng.nth k N m, rng.nth k (N + 1) m.succ) ∂P = ∫⁻ q, f q ∂P.prod P := fun m =>
      (pair_of_prefix h hp m).lintegral_comp hf
    simp only [h3, sum_inv_mul]

omit [IsProbabilityMeasure P] in
/-- One slot of multinomial resampling with equal weights takes a given value with probability `1 / N`. -/
theorem lintegral_slot_le (h : IdealRng rng P) (pf : Platform) (m : Fin N) (x : Fin (N + 1)) :
    ∫⁻ k, (if (multinomialIdx rng pf (fun _ : Fin N => (0 : Fl)) N k m).castSucc = x then 1 else 0) ∂P ≤
      (N : ℝ≥0∞)⁻¹ := by
  rw [multinomialIdx_slot h pf isLogits_zero m fun i => if i.castSucc = x then (1 : ℝ≥0∞) else 0]
  simp only [ofReal_nw_zero]
  rw [← Finset.mul_sum]
  exact mul_le_of_le_one_right' (sum_ite_le (Fin.castSucc_injective _) x)

omit [IsProbabilityMeasure P] in
/-- Two slots agree with probability `1 / N`. -/
theorem lintegral_coincide_le (h : IdealRng rng P) (pf : Platform) (m m' : Fin N) :
    ∫⁻ k, (if m ≠ m' ∧ multinomialIdx rng pf (fun _ : Fin N => (0 : Fl)) N k m =
        multinomialIdx rng pf (fun _ : Fin N => (0 : Fl)) N k m' then 1 else 0) ∂P ≤ (N : ℝ≥0∞)⁻¹ := by
  by_cases hne : m ≠ m'
  · have h1 := multinomialIdx_law h pf (isLogits_zero (N := N)) (n := N)
      fun a => if m ≠ m' ∧ a m = a m' then (1 : ℝ≥0∞) else 0
    rw [h1]
    have h2 := sum_prod_two (q := fun _ i => ENNReal.ofReal (nw (fun _ : Fin N => (0 : Fl)) i)) (n := N)
      (fun _ => by simp only [ofReal_nw_zero]; simpa using sum_inv_mul (N := N) 1) hne
      fun b b' => if m ≠ m' ∧ b = b' then (1 : ℝ≥0∞) else 0
    rw [h2]
    simp only [ofReal_nw_zero, hne, ne_eq, not_false_eq_true, true_and, mul_ite, mul_one, mul_zero,
      Finset.sum_ite_eq, Finset.mem_univ, if_true]
    exact (sum_inv_mul _).le
  · simp [hne]

/-- A split is a prefix of a larger split, and resampling is multinomial. -/
theorem firstStep_multinomial (h : IdealRng rng P) (hp : PrefixSplit rng.toPrng) (pf : Platform) :
    FirstStep rng.toPrng P (fun k (l : Fin N → Fl) => multinomialIdx rng pf l N k) zeroLogits
      (8 * (N : ℝ≥0∞)⁻¹) := by
  obtain ⟨A, hA⟩ : ∃ A : K → Fin N → Fin N, A = fun k => multinomialIdx rng pf (fun _ => (0 : Fl)) N k := ⟨_, rfl⟩
  have hAm : ∀ m, Measurable fun k => A k m := by
    intro m
    rw [hA]
    exact (measurable_pi_apply m).comp ((measurable_multinomialIdx h pf).comp
      (measurable_id.prodMk (measurable_const (a := fun _ : Fin N => (0 : Fl)))))
  have hslot : ∀ m x, ∫⁻ k, (if (A k m).castSucc = x then 1 else 0) ∂P ≤ (N : ℝ≥0∞)⁻¹ := by
    rw [hA]
    exact lintegral_slot_le h pf
  have hco : ∀ m m', ∫⁻ k, (if m ≠ m' ∧ A k m = A k m' then 1 else 0) ∂P ≤ (N : ℝ≥0∞)⁻¹ := by
    rw [hA]
    exact lintegral_coincide_le h pf
  have hev : Measurable fun q : Fin (N + 1) × (Fin (N + 1) → K) => q.2 q.1 :=
    measurable_from_prod_countable_right fun i => measurable_pi_apply i
  have h0 : ∀ (f : K × K → ℝ≥0∞) k, firstAvg rng.toPrng (fun k (l : Fin N → Fl) => multinomialIdx rng pf l N k)
      zeroLogits f k = ∑ m : Fin N, (N : ℝ≥0∞)⁻¹ *
        f (rng.nth k (N + 1) (A (rng.nth k (N + 1) 0) m).castSucc, rng.nth k (N + 1) m.succ) := by
    intro f k
    unfold firstAvg
    refine Finset.sum_congr rfl fun m _ => ?_
    have h1 : ENNReal.ofReal (nw (zeroLogits (rng.nth k (N + 1) 0) fun _ => 0) m) = (N : ℝ≥0∞)⁻¹ := ofReal_nw_zero m
    have h2 : A (rng.nth k (N + 1) 0) = multinomialIdx rng pf (fun _ => 0) N (rng.nth k (N + 1) 0) := by rw [hA]
    rw [h1]
    beta_reduce
    rw [← h2, hp k N (N + 1) _ (A (rng.nth k (N + 1) 0) m).2 (by omega)]
    rfl
  have hT : ∀ f : K × K → ℝ≥0∞, Measurable f → ∀ m : Fin N, Measurable fun ks : Fin (N + 1) → K =>
      f (ks (A (ks 0) m).castSucc, ks m.succ) := by
    intro f hf m
    have h1 : Measurable fun ks : Fin (N + 1) → K => (A (ks 0) m).castSucc :=
      (measurable_of_finite Fin.castSucc).comp ((hAm m).comp (measurable_pi_apply 0))
    exact hf.comp ((hev.comp (h1.prodMk measurable_id)).prodMk (measurable_pi_apply _))
  have hTk : ∀ f : K × K → ℝ≥0∞, Measurable f → ∀ (k : K) (m : Fin N), Measurable fun y : Fin N → K =>
      f ((Fin.cons k y : Fin (N + 1) → K) (A k m).castSucc, y m) := by
    intro f hf k m
    refine hf.comp (Measurable.prodMk ?_ (measurable_pi_apply m))
    refine Fin.cases ?_ (fun j => ?_) (A k m).castSucc
    · simp only [Fin.cons_zero]
      exact measurable_const
    · simp only [Fin.cons_succ]
      exact measurable_pi_apply j
  have hind : ∀ (m : Fin N) (x : Fin (N + 1)),
      Measurable fun k => if (A k m).castSucc = x then (1 : ℝ≥0∞) else 0 := fun m x =>
    (measurable_of_finite fun i : Fin N => if i.castSucc = x then (1 : ℝ≥0∞) else 0).comp (hAm m)
  refine ⟨fun f hf C hC => ?_, fun f hf C hC => ?_⟩
  · simp only [h0]
    have hm := (Finset.measurable_sum Finset.univ fun m _ => (hT f hf m).const_mul (N : ℝ≥0∞)⁻¹).pow_const 2
    have h1 := (h.split (N + 1)).lintegral_comp hm
    rw [lintegral_pi_cons P hm] at h1
    simp only [Fin.cons_zero, Fin.cons_succ] at h1
    refine h1.trans_le ?_
    -- the number of pairs that are not independent
    obtain ⟨bad, hbad⟩ : ∃ bad : K → Fin N → Fin N → ℝ≥0∞, bad = fun k m m' =>
        (if m' = m then 1 else 0) + (if (A k m).castSucc = 0 then 1 else 0) +
        (if (A k m').castSucc = 0 then 1 else 0) + (if (A k m).castSucc = m.succ then 1 else 0) +
        (if (A k m).castSucc = m'.succ then 1 else 0) + (if (A k m').castSucc = m.succ then 1 else 0) +
        (if (A k m').castSucc = m'.succ then 1 else 0) + (if m ≠ m' ∧ A k m = A k m' then 1 else 0) := ⟨_, rfl⟩
    have hcm : ∀ m m', Measurable fun k => if m ≠ m' ∧ A k m = A k m' then (1 : ℝ≥0∞) else 0 := fun m m' =>
      (measurable_of_finite fun i : Fin N × Fin N => if m ≠ m' ∧ i.1 = i.2 then (1 : ℝ≥0∞) else 0).comp
        ((hAm m).prodMk (hAm m'))
    have hbm : ∀ m m', Measurable fun k => bad k m m' := by
      intro m m'
      rw [hbad]
      exact ((((((measurable_const.add (hind m 0)).add (hind m' 0)).add (hind m _)).add (hind m _)).add
        (hind m' _)).add (hind m' _)).add (hcm m m')
    have hb : ∀ m m', ∫⁻ k, bad k m m' ∂P ≤ (if m' = m then 1 else 0) + 7 * (N : ℝ≥0∞)⁻¹ := by
      intro m m'
      rw [hbad]
      simp only
      rw [lintegral_add_right _ (hcm m m'), lintegral_add_right _ (hind m' _), lintegral_add_right _ (hind m' _),
        lintegral_add_right _ (hind m _), lintegral_add_right _ (hind m _), lintegral_add_right _ (hind m' _),
        lintegral_add_right _ (hind m _), lintegral_const, measure_univ, mul_one]
      calc _ ≤ (if m' = m then 1 else 0) + (N : ℝ≥0∞)⁻¹ + (N : ℝ≥0∞)⁻¹ + (N : ℝ≥0∞)⁻¹ + (N : ℝ≥0∞)⁻¹ +
              (N : ℝ≥0∞)⁻¹ + (N : ℝ≥0∞)⁻¹ + (N : ℝ≥0∞)⁻¹ := by
            gcongr
            · exact hslot _ _
            · exact hslot _ _
            · exact hslot _ _
            · exact hslot _ _
            · exact hslot _ _
            · exact hslot _ _
            · exact hco _ _
        _ = _ := by ring
    have hk : ∀ k, ∫⁻ y : Fin N → K, (∑ m : Fin N, (N : ℝ≥0∞)⁻¹ *
        f ((Fin.cons k y : Fin (N + 1) → K) (A k m).castSucc, y m)) ^ 2 ∂(Measure.pi fun _ => P) ≤
        (∫⁻ q, f q ∂P.prod P) ^ 2 + ∑ m, ∑ m', C ^ 2 * ((N : ℝ≥0∞)⁻¹ * (N : ℝ≥0∞)⁻¹) * bad k m m' := by
      intro k
      classical
      refine (lintegral_sq_le (μ := Measure.pi fun _ : Fin N => P) (fun _ : Fin N => (N : ℝ≥0∞)⁻¹)
        (fun _ => ∫⁻ q, f q ∂P.prod P) (hTk f hf k) (fun m w => hC _)
        (fun m m' => ∃ j j' : Fin N, (A k m).castSucc = j.succ ∧ (A k m').castSucc = j'.succ ∧ j ≠ m ∧ j ≠ j' ∧
          j ≠ m' ∧ m ≠ j' ∧ m ≠ m' ∧ j' ≠ m') fun m m' hr => ?_).trans ?_
      · obtain ⟨j, j', hj, hj', d1, d2, d3, d4, d5, d6⟩ := hr
        simp only [hj, hj', Fin.cons_succ]
        exact (lintegral_four P d1 d2 d3 d4 d5 d6 hf).le
      · rw [sum_inv_mul]
        refine add_le_add le_rfl ?_
        rw [Finset.mul_sum]
        refine Finset.sum_le_sum fun m _ => ?_
        rw [Finset.mul_sum]
        refine Finset.sum_le_sum fun m' _ => ?_
        rw [mul_assoc]
        refine mul_le_mul_right ?_ _
        split_ifs with hr
        · exact zero_le
        refine le_mul_of_one_le_right' ?_
        rw [hbad]
        by_contra hlt
        apply hr
        have c0 : m' ≠ m := fun hc => hlt (by
          simp only [if_pos hc]
          repeat first | exact le_rfl | exact le_add_self | refine le_add_right ?_)
        have c1 : (A k m).castSucc ≠ 0 := fun hc => hlt (by
          simp only [if_pos hc]
          repeat first | exact le_rfl | exact le_add_self | refine le_add_right ?_)
        have c2 : (A k m').castSucc ≠ 0 := fun hc => hlt (by
          simp only [if_pos hc]
          repeat first | exact le_rfl | exact le_add_self | refine le_add_right ?_)
        have c3 : (A k m).castSucc ≠ m.succ := fun hc => hlt (by
          simp only [if_pos hc]
          repeat first | exact le_rfl | exact le_add_self | refine le_add_right ?_)
        have c4 : (A k m).castSucc ≠ m'.succ := fun hc => hlt (by
          simp only [if_pos hc]
          repeat first | exact le_rfl | exact le_add_self | refine le_add_right ?_)
        have c5 : (A k m').castSucc ≠ m.succ := fun hc => hlt (by
          simp only [if_pos hc]
          repeat first | exact le_rfl | exact le_add_self | refine le_add_right ?_)
        have c6 : (A k m').castSucc ≠ m'.succ := fun hc => hlt (by
          simp only [if_pos hc]
          repeat first | exact le_rfl | exact le_add_self | refine le_add_right ?_)
        have c7 : ¬ (m ≠ m' ∧ A k m = A k m') := fun hc => hlt (by
          simp only [if_pos hc]
          repeat first | exact le_rfl | exact le_add_self | refine le_add_right ?_)
        obtain ⟨j, hj⟩ := Fin.exists_succ_eq.mpr c1
        obtain ⟨j', hj'⟩ := Fin.exists_succ_eq.mpr c2
        refine ⟨j, j', hj.symm, hj'.symm, fun hc => c3 (by rw [← hj, hc]), fun hc => c7 ⟨c0.symm, ?_⟩,
          fun hc => c4 (by rw [← hj, hc]), fun hc => c5 (by rw [← hj', hc]), c0.symm,
          fun hc => c6 (by rw [← hj', hc])⟩
        exact Fin.castSucc_injective _ (by rw [← hj, ← hj', hc])
    refine (lintegral_mono hk).trans ?_
    rw [lintegral_add_left measurable_const, lintegral_const, measure_univ, mul_one,
      lintegral_finsetSum' _ fun m _ => (Finset.measurable_sum _ fun m' _ =>
        (hbm m m').const_mul _).aemeasurable]
    refine add_le_add le_rfl ?_
    have h2 : ∀ m, ∫⁻ k, ∑ m', C ^ 2 * ((N : ℝ≥0∞)⁻¹ * (N : ℝ≥0∞)⁻¹) * bad k m m' ∂P ≤
        (N : ℝ≥0∞)⁻¹ * (8 * (N : ℝ≥0∞)⁻¹ * C ^ 2) := by
      intro m
      rw [lintegral_finsetSum' _ fun m' _ => ((hbm m m').const_mul _).aemeasurable]
      simp only [lintegral_const_mul _ (hbm m _)]
      calc _ ≤ ∑ m', C ^ 2 * ((N : ℝ≥0∞)⁻¹ * (N : ℝ≥0∞)⁻¹) * ((if m' = m then 1 else 0) + 7 * (N : ℝ≥0∞)⁻¹) :=
            Finset.sum_le_sum fun m' _ => mul_le_mul_right (hb m m') _
        _ = C ^ 2 * ((N : ℝ≥0∞)⁻¹ * (N : ℝ≥0∞)⁻¹) * (1 + 7) := by
            rw [← Finset.mul_sum, Finset.sum_add_distrib]
            congr 2
            · simp
            · simp only [mul_comm (7 : ℝ≥0∞)]
              exact sum_inv_mul 7
        _ = _ := by ring
    calc _ ≤ ∑ _m : Fin N, (N : ℝ≥0∞)⁻¹ * (8 * (N : ℝ≥0∞)⁻¹ * C ^ 2) := Finset.sum_le_sum fun m _ => h2 m
      _ = _ := sum_inv_mul _
  · simp only [h0]
    have hm := Finset.measurable_sum Finset.univ fun m _ => (hT f hf m).const_mul (N : ℝ≥0∞)⁻¹
    have h1 := (h.split (N + 1)).lintegral_comp hm
    rw [lintegral_finsetSum' _ fun m _ => ((hT f hf m).const_mul _).aemeasurable] at h1
    simp only [lintegral_const_mul _ (hT f hf _)] at h1
    have h2 : ∀ m : Fin N, ∫⁻ q, f q ∂P.prod P ≤ (∫⁻ ks : Fin (N + 1) → K, f (ks (A (ks 0) m).castSucc, ks m.succ)
        ∂(Measure.pi fun _ => P)) + 8 * (N : ℝ≥0∞)⁻¹ * C := by
      intro m
      rw [lintegral_pi_cons P (hT f hf m)]
      simp only [Fin.cons_zero, Fin.cons_succ]
      have hk : ∀ k, ∫⁻ q, f q ∂P.prod P ≤
          (∫⁻ y : Fin N → K, f ((Fin.cons k y : Fin (N + 1) → K) (A k m).castSucc, y m) ∂(Measure.pi fun _ => P)) +
            ((if (A k m).castSucc = 0 then 1 else 0) + if (A k m).castSucc = m.succ then 1 else 0) * C := by
        intro k
        have hle : ∫⁻ q, f q ∂P.prod P ≤ C :=
          (lintegral_mono hC).trans_eq (by rw [lintegral_const, measure_univ, mul_one])
        by_cases c1 : (A k m).castSucc = 0
        · rw [if_pos c1, add_mul, one_mul]
          exact hle.trans (le_add_left (le_self_add))
        by_cases c2 : (A k m).castSucc = m.succ
        · rw [if_pos c2, add_mul, one_mul]
          exact hle.trans (le_add_left le_add_self)
        obtain ⟨j, hj⟩ := Fin.exists_succ_eq.mpr c1
        refine le_add_right (le_of_eq ?_)
        rw [← hj]
        simp only [Fin.cons_succ]
        exact ((measurePreserving_pair P fun hc => c2 (by rw [← hj, hc])).lintegral_comp hf).symm
      have h3 := lintegral_mono (μ := P) hk
      have hsum : Measurable fun k => (if (A k m).castSucc = 0 then (1 : ℝ≥0∞) else 0) +
          if (A k m).castSucc = m.succ then 1 else 0 := (hind m 0).add (hind m _)
      rw [lintegral_const, measure_univ, mul_one, lintegral_add_right _ (hsum.mul_const _),
        lintegral_mul_const _ hsum, lintegral_add_right _ (hind m _)] at h3
      refine h3.trans (add_le_add le_rfl (mul_le_mul_left ?_ _))
      calc _ ≤ (N : ℝ≥0∞)⁻¹ + (N : ℝ≥0∞)⁻¹ := add_le_add (hslot _ _) (hslot _ _)
        _ = 2 * (N : ℝ≥0∞)⁻¹ := (two_mul _).symm
        _ ≤ _ := by gcongr; norm_num
    calc ∫⁻ q, f q ∂P.prod P = ∑ _m : Fin N, (N : ℝ≥0∞)⁻¹ * ∫⁻ q, f q ∂P.prod P := (sum_inv_mul _).symm
      _ ≤ ∑ m : Fin N, (N : ℝ≥0∞)⁻¹ * ((∫⁻ ks : Fin (N + 1) → K, f (ks (A (ks 0) m).castSucc, ks m.succ)
          ∂(Measure.pi fun _ => P)) + 8 * (N : ℝ≥0∞)⁻¹ * C) :=
          Finset.sum_le_sum fun m _ => mul_le_mul_right (h2 m) _
      _ = _ := by
          simp only [mul_add]
          rw [Finset.sum_add_distrib, sum_inv_mul]
          exact congrArg (· + _) h1.symm

end first

end

end Cuthbert.SMC
