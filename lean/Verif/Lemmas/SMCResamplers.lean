import Verif.Lemmas.SMCRun
import Verif.Props.ResamplingLaw

/-!
# The resampling functions satisfy the contracts of the particle filter
-/

namespace Cuthbert.SMC
open MeasureTheory Set Resampling
open scoped ENNReal

noncomputable section

variable {K X : Type} [MeasurableSpace K] {N : ℕ} [NeZero N]

/-- Log-weights zero. -/
def zeroLogits : K → (Fin N → Fl) → Fin N → Fl := fun _ _ _ => 0

omit [MeasurableSpace K] in
theorem revivesDead_zero : RevivesDead (zeroLogits (K := K) (N := N)) := fun _ _ _ => isLogits_zero

theorem UnbiasedWeights.of_mean {P : Measure K} {I : K → (Fin N → Fl) → Fin N → Fin N}
    (hm : Measurable fun q : K × (Fin N → Fl) => I q.1 q.2)
    (h : ∀ l, IsLogits l → ∀ i, ∑ m, P {k | I k l m = i} = N * ENNReal.ofReal (nw l i)) :
    UnbiasedWeights P I zeroLogits where
  measurable_idx := hm
  measurable_logits := measurable_const
  isLogits _ _ _ := isLogits_zero
  unbiased l hl i := by
    have h1 : ∀ m, MeasurableSet {k | I k l m = i} := fun m => by
      have h2 : Measurable fun k => I k l m :=
        (measurable_pi_apply m).comp (hm.comp (measurable_id.prodMk (measurable_const (a := l))))
      exact h2 (measurableSet_singleton i)
    have h2 : ∀ (k : K) (m : Fin N), ENNReal.ofReal (nw (zeroLogits k l) m) *
        (if I k l m = i then (1 : ℝ≥0∞) else 0) =
        (N : ℝ≥0∞)⁻¹ * {k | I k l m = i}.indicator 1 k := by
      intro k m
      have h3 : nw (zeroLogits k l) m = (N : ℝ)⁻¹ := nw_zero m
      rw [h3, ENNReal.ofReal_inv_of_pos (by exact_mod_cast NeZero.pos N), ENNReal.ofReal_natCast]
      simp [indicator_apply]
    simp only [h2]
    rw [lintegral_finsetSum' _ fun m _ => ((measurable_one.indicator (h1 m)).const_mul _).aemeasurable]
    simp only [lintegral_const_mul _ (measurable_one.indicator (h1 _)), lintegral_indicator_one (h1 _)]
    rw [← Finset.mul_sum, h l hl i, ← mul_assoc,
      ENNReal.inv_mul_cancel (by exact_mod_cast NeZero.ne N) (by simp), one_mul]

section

variable {rng : Rng K} {P : Measure K}

omit [MeasurableSpace K] in
theorem uses_multinomial (rng : Rng K) (pf : Platform) :
    Uses (X := X) (N := N) (multinomial rng pf) (fun k l => multinomialIdx rng pf l N k) zeroLogits :=
  fun k l pos => multinomial_eq rng pf k l pos N

omit [MeasurableSpace K] in
theorem uses_systematic (rng : Rng K) (pf : Platform) :
    Uses (X := X) (N := N) (systematic rng pf) (fun k l => systematicIdx rng pf l N k) zeroLogits :=
  fun k l pos => systematic_eq rng pf k l pos N

omit [MeasurableSpace K] in
theorem uses_killing (rng : Rng K) (pf : Platform) :
    Uses (X := X) (N := N) (killing rng pf) (fun k l => killingIdx rng pf l k) zeroLogits :=
  fun k l pos => killing_eq rng pf k l pos

/-- The indices of adaptive resampling. -/
def adaptIdx (I : K → (Fin N → Fl) → Fin N → Fin N) (θ : ℝ) : K → (Fin N → Fl) → Fin N → Fin N :=
  fun k l => if Fl.ltb (logEss l) (Fl.log (Fl.fin (θ * N))) then I k l else id

/-- The log-weights after adaptive resampling. -/
def adaptLogits (L : K → (Fin N → Fl) → Fin N → Fl) (θ : ℝ) : K → (Fin N → Fl) → Fin N → Fl :=
  fun k l => if Fl.ltb (logEss l) (Fl.log (Fl.fin (θ * N))) then L k l else l

omit [MeasurableSpace K] [NeZero N] in
theorem uses_adaptive {R : Resampler K N X} {I : K → (Fin N → Fl) → Fin N → Fin N}
    {L : K → (Fin N → Fl) → Fin N → Fl} (hR : Uses R I L) (θ : ℝ) :
    Uses (adaptive R θ) (adaptIdx I θ) (adaptLogits L θ) := by
  intro k l pos
  rw [adaptive, dif_pos rfl]
  unfold adaptIdx adaptLogits
  by_cases h : Fl.ltb (logEss l) (Fl.log (Fl.fin (θ * N))) = true
  · simp only [if_pos h]
    exact hR k l pos
  · simp only [if_neg h]
    rfl

omit [NeZero N] in
theorem measurable_logEss : Measurable (logEss : (Fin N → Fl) → Fl) := by
  have h1 : Measurable fun l : Fin N → Fl => Fl.fin 2 * Fl.logsumexp l :=
    Fl.measurable_mul.comp (measurable_const.prodMk Fl.measurable_logsumexp)
  have h2 : Measurable fun l : Fin N → Fl => fun i => Fl.fin 2 * l i :=
    measurable_pi_iff.mpr fun i =>
      Fl.measurable_mul.comp (measurable_const.prodMk (measurable_pi_apply i))
  exact h1.fl_sub (Fl.measurable_logsumexp.comp h2)

omit [NeZero N] in
theorem measurable_adaptCond (θ : ℝ) : MeasurableSet {q : K × (Fin N → Fl) |
    Fl.ltb (logEss q.2) (Fl.log (Fl.fin (θ * N))) = true} := by
  have h1 : Measurable fun q : K × (Fin N → Fl) => Fl.ltb (logEss q.2) (Fl.log (Fl.fin (θ * N))) :=
    Fl.measurable_ltb.comp ((measurable_logEss.comp measurable_snd).prodMk measurable_const)
  exact h1 (measurableSet_singleton true)

omit [NeZero N] in
theorem UnbiasedWeights.adaptive [IsProbabilityMeasure P] {I : K → (Fin N → Fl) → Fin N → Fin N}
    {L : K → (Fin N → Fl) → Fin N → Fl} (h : UnbiasedWeights P I L) (θ : ℝ) :
    UnbiasedWeights P (adaptIdx I θ) (adaptLogits L θ) where
  measurable_idx := Measurable.ite (measurable_adaptCond θ) h.measurable_idx measurable_const
  measurable_logits := Measurable.ite (measurable_adaptCond θ) h.measurable_logits measurable_snd
  isLogits k l hl := by
    unfold adaptLogits
    split_ifs
    · exact h.isLogits k l hl
    · exact hl
  unbiased l hl i := by
    unfold adaptIdx adaptLogits
    by_cases hc : Fl.ltb (logEss l) (Fl.log (Fl.fin (θ * N))) = true
    · simp only [if_pos hc]
      exact h.unbiased l hl i
    · simp only [if_neg hc, id]
      rw [lintegral_const, measure_univ, mul_one]
      simp

end

section ideal

variable {rng : Rng K} {P : Measure K} (h : IdealRng rng P)

include h

theorem unbiasedWeights_multinomial (pf : Platform) :
    UnbiasedWeights P (fun k (l : Fin N → Fl) => multinomialIdx rng pf l N k) zeroLogits := by
  refine .of_mean (measurable_multinomialIdx h pf) fun l hl i => ?_
  obtain ⟨R, h1, -, h3, h4⟩ := multinomial_unbiased h pf hl (fun i => i) N
  have h4' := h4 i
  rw [lintegral_copies h3] at h4'
  rw [← h4']
  refine Finset.sum_congr rfl fun m _ => ?_
  have h5 : ∀ k, R k = _ := fun k => Except.ok.inj ((h1 k).symm.trans (multinomial_eq rng pf k l _ N))
  simp only [h5]

theorem unbiasedWeights_systematic (pf : Platform) :
    UnbiasedWeights P (fun k (l : Fin N → Fl) => systematicIdx rng pf l N k) zeroLogits :=
  .of_mean (measurable_systematicIdx h pf) fun _ hl i => systematicIdx_mean h pf hl i

theorem unbiasedWeights_killing (pf : Platform) :
    UnbiasedWeights P (fun k (l : Fin N → Fl) => killingIdx rng pf l k) zeroLogits := by
  refine .of_mean (measurable_killingIdx h pf) fun l hl i => ?_
  obtain ⟨R, h1, -, h3, h4⟩ := killing_unbiased h pf hl (fun i => i)
  have h4' := h4 i
  rw [lintegral_copies h3] at h4'
  rw [← h4']
  refine Finset.sum_congr rfl fun m _ => ?_
  have h5 : ∀ k, R k = _ := fun k => Except.ok.inj ((h1 k).symm.trans (killing_eq rng pf k l _))
  simp only [h5]

end ideal

/-! ### Equal weights -/

section equal

variable {rng : Rng K} {P : Measure K}

omit [NeZero N] in
theorem cumBelow_const (c : ℝ) (i : Fin N) : cumBelow (fun _ => c) i = (i : ℕ) * c := by
  rw [cumBelow, Finset.sum_const, Fin.card_Iio, nsmul_eq_mul]

theorem keepsEqual_systematic (h : IdealRng rng P) (pf : Platform) :
    KeepsEqual P (fun k (l : Fin N → Fl) => systematicIdx rng pf l N k) zeroLogits := by
  have h1 : ∀ᵐ k ∂P, 0 < rng.uniform0 k ∧ rng.uniform0 k < 1 :=
    h.uniform0.quasiMeasurePreserving.ae unif_ae
  filter_upwards [h1] with k hk m
  refine ⟨?_, nw_zero m⟩
  have hN : (0 : ℝ) < N := by exact_mod_cast NeZero.pos N
  rw [systematicIdx, systematic_idx pf isLogits_zero hk.1 hk.2, cum_eq]
  have h2 : nw (fun _ : Fin N => (0 : Fl)) = fun _ => (N : ℝ)⁻¹ := funext nw_zero
  rw [h2, cumBelow_const, lt_div_iff₀ hN, div_le_iff₀ hN]
  field_simp
  constructor <;> linarith

theorem vmax_zero : Fl.vmax (fun _ : Fin N => (0 : Fl)) = 0 := by
  obtain ⟨M, h1, ⟨i, hi⟩, -⟩ := vmax_fin (isLogits_zero (N := N))
  rw [h1, ← hi]

theorem keepsEqual_killing (rng : Rng K) (P : Measure K) (pf : Platform) :
    KeepsEqual P (fun k (l : Fin N → Fl) => killingIdx rng pf l k) zeroLogits := by
  refine Filter.Eventually.of_forall fun k m => ⟨?_, nw_zero m⟩
  have hu := rng.uniform_mem (rng.nth k 2 0) N m
  unfold killingIdx
  refine if_pos ?_
  rw [surv, vmax_zero]
  rcases hu.1.eq_or_lt with h0 | h0
  · rw [← h0, Fl.log_zero, Fl.leb_iff]
    trivial
  · rw [Fl.log_fin _ h0, Fl.zero_def, Fl.fin_sub, Fl.leb_fin, sub_self]
    exact Real.log_nonpos hu.1 hu.2.le

theorem keepsEqual_adaptive (P : Measure K) (I : K → (Fin N → Fl) → Fin N → Fin N)
    (L : K → (Fin N → Fl) → Fin N → Fl) {θ : ℝ} (hθ : θ ≤ 1) :
    KeepsEqual P (adaptIdx I θ) (adaptLogits L θ) := by
  have hN : (0 : ℝ) < N := by exact_mod_cast NeZero.pos N
  have h1 : ¬ Fl.ltb (logEss fun _ : Fin N => (0 : Fl)) (Fl.log (Fl.fin (θ * N))) = true := by
    have h2 : logEss (fun _ : Fin N => (0 : Fl)) = Fl.fin (Real.log N) := by
      rw [logEss_eq isLogits_zero]
      simp only [Fl.lik, Real.exp_zero, Finset.sum_const, Finset.card_univ,
        Fintype.card_fin, nsmul_eq_mul, mul_one, one_pow]
      congr 2
      field_simp
    rw [h2]
    rcases lt_trichotomy 0 (θ * (N : ℝ)) with h | h | h
    · rw [Fl.log_fin _ h, Fl.ltb_fin, Real.log_lt_log_iff hN h]
      nlinarith
    · rw [← h, Fl.log_zero, Fl.ltb_iff]
      exact fun h => h.elim
    · have : Fl.log (Fl.fin (θ * N)) = Fl.nan := by
        rw [Fl.log, if_neg (by linarith), if_neg h.ne]
      rw [this, Fl.ltb_nan]
      exact Bool.false_ne_true
  refine Filter.Eventually.of_forall fun k m => ⟨?_, ?_⟩
  · unfold adaptIdx
    rw [if_neg h1]
    rfl
  · unfold adaptLogits
    rw [if_neg h1]
    exact nw_zero m

end equal

end

end Cuthbert.SMC
