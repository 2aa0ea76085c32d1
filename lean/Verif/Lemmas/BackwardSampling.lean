import Verif.Props.TracingSmoother
import Verif.Spec.BackwardSampling

/-!
# Lemmas about backward sampling after a run of the particle filter
-/

namespace Cuthbert.SMC
open MeasureTheory Set Resampling Spec
open scoped ENNReal

noncomputable section

variable {K X Inp : Type} {N n : ℕ}

/-- The path `p` up to time `t`, then `x`. -/
def splice (t : ℕ) (p : ℕ → X) (x : X) : ℕ → X := fun s => if s ≤ t then p s else x

section

variable [MeasurableSpace X]

theorem measurable_splice (t : ℕ) : Measurable fun q : (ℕ → X) × X => splice t q.1 q.2 := by
  refine measurable_pi_iff.mpr fun s => ?_
  unfold splice
  by_cases h : s ≤ t
  · simp only [if_pos h]
    exact (measurable_pi_apply s).comp measurable_fst
  · simp only [if_neg h]
    exact measurable_snd

end

/-- The probability that the backward sampler picks `j` for `x'`. -/
def backLaw [MeasurableSpace K] [NeZero N] (P : Measure K) (rng : Rng K) (ld : X → X → Fl) (c : Core X N) (x' : X)
    (j : Fin N) : ℝ≥0∞ :=
  P {k | rng.categorical k N (exactLogWeights c.1 x' c.2.1 ld) = j}

/-- The expectation of `ψ` over the paths that backward sampling gives for particle `i` at time `t`. -/
def backExp [MeasurableSpace K] [NeZero N] (P : Measure K) (rng : Rng K) (ld : ℕ → X → X → Fl) (H : ℕ → Core X N) :
    (t : ℕ) → Fin N → ((ℕ → X) → ℝ≥0∞) → ℝ≥0∞
  | 0, i, ψ => ψ fun _ => (H 0).1 i
  | t + 1, i, ψ => ∑ j, backLaw P rng (ld t) (H t) ((H (t + 1)).1 i) j *
      backExp P rng ld H t j fun p => ψ (splice t p ((H (t + 1)).1 i))

/-- The estimate of the expectation of `ψ` at time `t`. -/
def histEst [MeasurableSpace K] [NeZero N] (P : Measure K) (rng : Rng K) (ld : ℕ → X → X → Fl) (H : ℕ → Core X N)
    (t : ℕ) (ψ : (ℕ → X) → ℝ≥0∞) : ℝ≥0∞ :=
  ENNReal.ofReal (H t).2.2.lik * ∑ i, ENNReal.ofReal (nw (H t).2.1 i) * backExp P rng ld H t i ψ

section backExp

variable [MeasurableSpace K] [NeZero N] {P : Measure K} {rng : Rng K} {ld : ℕ → X → X → Fl}
  {H H' : ℕ → Core X N}

theorem backExp_congr : ∀ (t : ℕ) (i : Fin N) (ψ ψ' : (ℕ → X) → ℝ≥0∞), (∀ s ≤ t, H s = H' s) →
    (∀ p : ℕ → X, (∀ s, t ≤ s → p s = (H t).1 i) → ψ p = ψ' p) →
    backExp P rng ld H t i ψ = backExp P rng ld H' t i ψ'
  | 0, i, ψ, ψ', hH, hψ => by
    rw [backExp, backExp, ← hH 0 le_rfl]
    exact hψ _ fun s _ => rfl
  | t + 1, i, ψ, ψ', hH, hψ => by
    rw [backExp, backExp, ← hH (t + 1) le_rfl, ← hH t (by omega)]
    refine Finset.sum_congr rfl fun j _ => ?_
    congr 1
    refine backExp_congr t j _ _ (fun s hs => hH s (by omega)) fun p _ => hψ _ fun s hs => ?_
    rw [splice, if_neg (by omega)]

theorem backExp_const_mul (a : ℝ≥0∞) : ∀ (t : ℕ) (i : Fin N) (ψ : (ℕ → X) → ℝ≥0∞),
    backExp P rng ld H t i (fun p => a * ψ p) = a * backExp P rng ld H t i ψ
  | 0, i, ψ => rfl
  | t + 1, i, ψ => by
    rw [backExp, backExp, Finset.mul_sum]
    refine Finset.sum_congr rfl fun j _ => ?_
    rw [backExp_const_mul a t j fun p => ψ (splice t p ((H (t + 1)).1 i)), mul_left_comm]

theorem measurable_backExp_fixed {Y : Type*} [MeasurableSpace Y] : ∀ (t : ℕ) (i : Fin N) (ψ : Y → (ℕ → X) → ℝ≥0∞),
    (∀ p, Measurable fun y => ψ y p) → Measurable fun y => backExp P rng ld H t i (ψ y)
  | 0, i, ψ, h => h _
  | t + 1, i, ψ, h => by
    refine Finset.measurable_sum _ fun j _ => ?_
    exact (measurable_backExp_fixed t j (fun y p => ψ y (splice t p ((H (t + 1)).1 i))) fun p => h _).const_mul _

theorem backExp_lintegral {Y : Type*} [MeasurableSpace Y] (ν : Measure Y) : ∀ (t : ℕ) (i : Fin N)
    (ψ : Y → (ℕ → X) → ℝ≥0∞), (∀ p, Measurable fun y => ψ y p) →
    backExp P rng ld H t i (fun p => ∫⁻ y, ψ y p ∂ν) = ∫⁻ y, backExp P rng ld H t i (ψ y) ∂ν
  | 0, i, ψ, h => rfl
  | t + 1, i, ψ, h => by
    simp only [backExp]
    have hm : ∀ j, Measurable fun y => backExp P rng ld H t j fun p => ψ y (splice t p ((H (t + 1)).1 i)) :=
      fun j => measurable_backExp_fixed t j (fun y p => ψ y (splice t p ((H (t + 1)).1 i))) fun p => h _
    rw [lintegral_finsetSum' _ fun j _ => ((hm j).const_mul _).aemeasurable]
    refine Finset.sum_congr rfl fun j _ => ?_
    rw [lintegral_const_mul _ (hm j),
      backExp_lintegral ν t j (fun y p => ψ y (splice t p ((H (t + 1)).1 i))) fun p => h _]

end backExp

section measurable

variable [MeasurableSpace K] [MeasurableSpace X] [NeZero N] {P : Measure K} {rng : Rng K} (h : IdealRng rng P)

include h

theorem measurable_backLaw {ld : X → X → Fl} (hld : Measurable fun q : X × X => ld q.1 q.2) (j : Fin N) :
    Measurable fun q : Core X N × X => backLaw P rng ld q.1 q.2 j := by
  have := h.prob
  have h1 : Measurable fun (q : Core X N × X) (i : Fin N) => q.1.2.1 i + ld (q.1.1 i) q.2 := by
    refine measurable_pi_iff.mpr fun i => ?_
    have h2 : Measurable fun q : Core X N × X => q.1.2.1 i :=
      (measurable_pi_apply i).comp (measurable_fst.comp (measurable_snd.comp measurable_fst))
    have h3 : Measurable fun q : Core X N × X => ld (q.1.1 i) q.2 :=
      Measurable.comp (f := fun q : Core X N × X => (q.1.1 i, q.2)) hld (((measurable_pi_apply i).comp (measurable_fst.comp measurable_fst)).prodMk measurable_snd)
    exact Fl.measurable_add.comp (h2.prodMk h3)
  have h4 : Measurable fun q : Core X N × X => exactLogWeights q.1.1 q.2 q.1.2.1 ld := by
    refine measurable_pi_iff.mpr fun i => ?_
    exact ((measurable_pi_apply i).comp h1).fl_sub (Fl.measurable_logsumexp.comp h1)
  have h5 : Measurable fun q : (Core X N × X) × K =>
      rng.categorical q.2 N (exactLogWeights q.1.1.1 q.1.2 q.1.1.2.1 ld) :=
    (h.categorical_measurable N).comp (measurable_snd.prodMk (h4.comp measurable_fst))
  exact measurable_measure_prodMk_left (ν := P) (h5 (measurableSet_singleton j))

theorem measurable_backExp {ld : ℕ → X → X → Fl} {T : ℕ} (hld : ∀ t < T, Measurable fun q : X × X => ld t q.1 q.2)
    {Ω : Type*} [MeasurableSpace Ω] {H : Ω → ℕ → Core X N} (hH : Measurable H) :
    ∀ (t : ℕ) (i : Fin N) (ψ : Ω → (ℕ → X) → ℝ≥0∞), t ≤ T → (Measurable fun q : Ω × (ℕ → X) => ψ q.1 q.2) →
    Measurable fun ω => backExp P rng ld (H ω) t i (ψ ω)
  | 0, i, ψ, _, hψ => by
    have h1 : Measurable fun ω => (H ω 0).1 i :=
      (measurable_pi_apply i).comp (measurable_fst.comp ((measurable_pi_apply 0).comp hH))
    exact hψ.comp (measurable_id.prodMk (measurable_pi_iff.mpr fun _ => h1))
  | t + 1, i, ψ, ht, hψ => by
    have h1 : Measurable fun ω => (H ω (t + 1)).1 i :=
      (measurable_pi_apply i).comp (measurable_fst.comp ((measurable_pi_apply (t + 1)).comp hH))
    have h2 : Measurable fun ω => H ω t := (measurable_pi_apply t).comp hH
    refine Finset.measurable_sum _ fun j _ => ?_
    refine ((measurable_backLaw h (hld t (by omega)) j).comp (h2.prodMk h1)).mul ?_
    refine measurable_backExp hld hH t j (fun ω p => ψ ω (splice t p ((H ω (t + 1)).1 i))) (by omega) ?_
    have h3 : Measurable fun q : Ω × (ℕ → X) => splice t q.2 ((H q.1 (t + 1)).1 i) :=
      (measurable_splice t).comp (measurable_snd.prodMk (h1.comp measurable_fst))
    exact hψ.comp (measurable_fst.prodMk h3)

theorem measurable_histEst {ld : ℕ → X → X → Fl} {t : ℕ} (hld : ∀ s < t, Measurable fun q : X × X => ld s q.1 q.2)
    {ψ : (ℕ → X) → ℝ≥0∞} (hψ : Measurable ψ) :
    Measurable fun H : ℕ → Core X N => histEst P rng ld H t ψ := by
  have h0 : Measurable fun H : ℕ → Core X N => H t := measurable_pi_apply t
  have h1 : Measurable fun H : ℕ → Core X N => ENNReal.ofReal (H t).2.2.lik :=
    ENNReal.measurable_ofReal.comp (Fl.measurable_lik.comp (measurable_snd.comp (measurable_snd.comp h0)))
  refine h1.mul (Finset.measurable_sum _ fun i _ => ?_)
  have h2 : Measurable fun H : ℕ → Core X N => ENNReal.ofReal (nw (H t).2.1 i) :=
    ENNReal.measurable_ofReal.comp ((measurable_nw i).comp (measurable_fst.comp (measurable_snd.comp h0)))
  exact h2.mul (measurable_backExp h hld measurable_id t i (fun _ => ψ) le_rfl (hψ.comp measurable_snd))

end measurable

/-! ### One step -/

section step

variable [MeasurableSpace K] [MeasurableSpace X] [NeZero N] {P : Measure K} {rng : Rng K}
  {mdl : FKModel K X Inp} {I : K → (Fin N → Fl) → Fin N → Fin N}
  {L : K → (Fin N → Fl) → Fin N → Fl} {u : Inp}

omit [MeasurableSpace X] in
/-- Backward probabilities times the mixture density. -/
theorem mixture_mul_backLaw (h : IdealRng rng P) {ld : X → X → Fl} (hld : ∀ x x', (ld x x').IsLog) {c : Core X N}
    (hl : IsLogits c.2.1) (x' : X) (j : Fin N) :
    (∑ i, ENNReal.ofReal (nw c.2.1 i) * ENNReal.ofReal (ld (c.1 i) x').lik) * backLaw P rng ld c x' j =
      ENNReal.ofReal (nw c.2.1 j) * ENNReal.ofReal (ld (c.1 j) x').lik := by
  simp only [← ENNReal.ofReal_mul (nw_nonneg _ _)]
  have h0 : ∀ i, 0 ≤ nw c.2.1 i * (ld (c.1 i) x').lik := fun i => mul_nonneg (nw_nonneg _ _) (Fl.lik_nonneg _)
  rw [← ENNReal.ofReal_sum_of_nonneg fun i _ => h0 i]
  by_cases hs : ∃ i, (c.2.1 i).IsFin ∧ (ld (c.1 i) x').IsFin
  · have hc : CanSample c.1 c.2.1 ld x' := ⟨hl.1, fun i => hld _ _, hs⟩
    obtain ⟨h1, h2⟩ := exactLogWeights_isLogits hc
    rw [backLaw, h.categorical N _ h1, h2, ← ENNReal.ofReal_mul (Finset.sum_nonneg fun i _ => h0 i)]
    congr 1
    have h3 := sum_lik_pos hl
    have h4 : 0 < ∑ i, (c.2.1 i).lik * (ld (c.1 i) x').lik := by
      obtain ⟨i, hi, hi'⟩ := hs
      refine Finset.sum_pos' (fun i _ => mul_nonneg (Fl.lik_nonneg _) (Fl.lik_nonneg _)) ⟨i, Finset.mem_univ i, ?_⟩
      have pos : ∀ {a : Fl}, a.IsFin → 0 < a.lik := by
        intro a ha
        cases a <;> first | exact ha.elim | exact Real.exp_pos _
      exact mul_pos (pos hi) (pos hi')
    unfold backwardProb nw
    simp only [div_mul_eq_mul_div, ← Finset.sum_div]
    field_simp
  · have h1 : ∀ i, nw c.2.1 i * (ld (c.1 i) x').lik = 0 := by
      intro i
      push Not at hs
      rcases (hl.1 i).cases with h2 | h2
      · rw [nw, h2]
        simp [Fl.lik]
      · rcases (hld (c.1 i) x').cases with h3 | h3
        · rw [h3]
          simp [Fl.lik]
        · exact absurd h3 (hs i h2)
    simp [h1]

theorem fkQ_eq [IsProbabilityMeasure P] (hu : mdl.Regular u) {f : X → ℝ≥0∞} (hf : Measurable f) (x : X) :
    fkQ P mdl u f x = ∫⁻ x', f x' ∂(((mdl.step P u).kernel x).withDensity ((mdl.step P u).pot x)) := by
  have h1 : Measurable ((mdl.step P u).pot x) := by
    have h2 : Measurable fun x' => mdl.logPotential x x' u :=
      hu.logPotential.comp (measurable_const.prodMk measurable_id)
    exact ENNReal.measurable_ofReal.comp (Fl.measurable_lik.comp h2)
  have h3 : Measurable fun k => mdl.propagate k x u :=
    hu.propagate.comp (measurable_id.prodMk measurable_const)
  rw [lintegral_withDensity_eq_lintegral_mul _ h1 hf]
  change _ = ∫⁻ x', ((mdl.step P u).pot x * f) x' ∂(P.map fun k => mdl.propagate k x u)
  rw [lintegral_map (h1.mul hf) h3]
  rfl

/-- The weighted transition applied to a function of the path. -/
def pathQ (P : Measure K) (mdl : FKModel K X Inp) (u : Inp) (t : ℕ) (ψ : (ℕ → X) → ℝ≥0∞) (p : ℕ → X) : ℝ≥0∞ :=
  fkQ P mdl u (fun x' => ψ (splice t p x')) (p t)

theorem lintegral_histEst_step [IsProbabilityMeasure P] (h : IdealRng rng P) (hR : UnbiasedWeights P I L)
    (hu : mdl.Regular u) {ld : ℕ → X → X → Fl} {t : ℕ} (hld : BackwardDensity (mdl.step P u) (ld t))
    {ψ : (ℕ → X) → ℝ≥0∞} (hψ : Measurable ψ) {H : ℕ → Core X N} (hH : Good (RevivesDead L) (H t)) :
    ∫⁻ ks, histEst P rng ld (Function.update H (t + 1) (coreStep mdl I L u ks (H t))) (t + 1) ψ
        ∂(Measure.pi fun _ => P) = histEst P rng ld H t (pathQ P mdl u t ψ) := by
  obtain ⟨ν, hν⟩ := hld.density
  obtain ⟨Ψ, hΨ⟩ : ∃ Ψ : X → ℝ≥0∞, Ψ = fun x' => ∑ j, backLaw P rng (ld t) (H t) x' j *
      backExp P rng ld H t j fun p => ψ (splice t p x') := ⟨_, rfl⟩
  have hsec : ∀ p, Measurable fun x' => ψ (splice t p x') := fun p =>
    hψ.comp ((measurable_splice t).comp (measurable_const.prodMk measurable_id))
  have hBm : ∀ j, Measurable fun x' => backExp P rng ld H t j fun p => ψ (splice t p x') := fun j =>
    measurable_backExp_fixed t j (fun x' p => ψ (splice t p x')) hsec
  have hΨm : Measurable Ψ := by
    rw [hΨ]
    refine Finset.measurable_sum _ fun j _ => ?_
    exact ((measurable_backLaw h hld.measurable j).comp (measurable_const.prodMk measurable_id)).mul (hBm j)
  have h1 : ∀ ks, histEst P rng ld (Function.update H (t + 1) (coreStep mdl I L u ks (H t))) (t + 1) ψ =
      est Ψ (coreStep mdl I L u ks (H t)) := by
    intro ks
    rw [histEst, est, Function.update_self]
    congr 1
    refine Finset.sum_congr rfl fun i _ => ?_
    congr 1
    rw [backExp, Function.update_self, Function.update_of_ne (by omega), hΨ]
    refine Finset.sum_congr rfl fun j _ => ?_
    congr 1
    exact backExp_congr t j _ _ (fun s hs => Function.update_of_ne (by omega) _ _) fun p _ => rfl
  simp only [h1]
  rw [lintegral_coreStep hR hu hΨm hH]
  rcases hH.alive with hl | hl
  swap
  · simp [est, histEst, hl.2, Fl.lik]
  rw [est, histEst]
  congr 1
  have hdm : ∀ x, Measurable fun x' => ENNReal.ofReal (ld t x x').lik := fun x => by
    have h2 : Measurable fun x' => ld t x x' := hld.measurable.comp (measurable_const.prodMk measurable_id)
    exact ENNReal.measurable_ofReal.comp (Fl.measurable_lik.comp h2)
  have hQ : ∀ (f : X → ℝ≥0∞), Measurable f → ∀ x, fkQ P mdl u f x =
      ∫⁻ x', ENNReal.ofReal (ld t x x').lik * f x' ∂ν := by
    intro f hf x
    rw [fkQ_eq hu hf, hν x, lintegral_withDensity_eq_lintegral_mul _ (hdm x) hf]
    rfl
  simp only [hQ Ψ hΨm]
  -- the mixture
  have h2 : ∀ i, ENNReal.ofReal (nw (H t).2.1 i) * ∫⁻ x', ENNReal.ofReal (ld t ((H t).1 i) x').lik * Ψ x' ∂ν =
      ∫⁻ x', ENNReal.ofReal (nw (H t).2.1 i) * (ENNReal.ofReal (ld t ((H t).1 i) x').lik * Ψ x') ∂ν := fun i =>
    (lintegral_const_mul _ ((hdm _).mul hΨm)).symm
  simp only [h2]
  have h2' : ∀ i, Measurable fun x' => ENNReal.ofReal (nw (H t).2.1 i) *
      (ENNReal.ofReal (ld t ((H t).1 i) x').lik * Ψ x') := fun i => ((hdm _).mul hΨm).const_mul _
  rw [← lintegral_finsetSum' _ fun i _ => (h2' i).aemeasurable]
  have h3 : ∀ x', ∑ i, ENNReal.ofReal (nw (H t).2.1 i) * (ENNReal.ofReal (ld t ((H t).1 i) x').lik * Ψ x') =
      ∑ j, ENNReal.ofReal (nw (H t).2.1 j) * (ENNReal.ofReal (ld t ((H t).1 j) x').lik *
        backExp P rng ld H t j fun p => ψ (splice t p x')) := by
    intro x'
    simp only [← mul_assoc]
    rw [← Finset.sum_mul, hΨ, Finset.mul_sum]
    refine Finset.sum_congr rfl fun j _ => ?_
    rw [← mul_assoc, mixture_mul_backLaw h hld.isLog hl]
  simp only [h3]
  have h4 : ∀ j, Measurable fun x' => ENNReal.ofReal (ld t ((H t).1 j) x').lik *
        backExp P rng ld H t j fun p => ψ (splice t p x') := fun j => (hdm _).mul (hBm j)
  rw [lintegral_finsetSum' _ fun j _ => ((h4 j).const_mul _).aemeasurable]
  refine Finset.sum_congr rfl fun j _ => ?_
  rw [lintegral_const_mul _ (h4 j)]
  congr 1
  -- pull the density out of the expectation over paths
  have h5 : ∀ x', ENNReal.ofReal (ld t ((H t).1 j) x').lik * (backExp P rng ld H t j fun p => ψ (splice t p x')) =
      backExp P rng ld H t j fun p => ENNReal.ofReal (ld t (p t) x').lik * ψ (splice t p x') := by
    intro x'
    rw [← backExp_const_mul]
    refine backExp_congr t j _ _ (fun _ _ => rfl) fun p hp => ?_
    rw [hp t le_rfl]
  simp only [h5]
  rw [← backExp_lintegral ν t j (fun x' p => ENNReal.ofReal (ld t (p t) x').lik * ψ (splice t p x'))
    fun p => (hdm _).mul (hsec p)]
  refine backExp_congr t j _ _ (fun _ _ => rfl) fun p _ => ?_
  rw [pathQ, hQ _ (hsec p)]

end step

/-! ### A run -/

/-- All cores of a run that continues from the cores `H` up to time `t`. -/
def histAt (rng : Prng K) (mdl : FKModel K X Inp) (I : K → (Fin N → Fl) → Fin N → Fin N)
    (L : K → (Fin N → Fl) → Fin N → Fl) :
    (us : List Inp) → ℕ → K → (ℕ → Core X N) → (Fin us.length → K) → ℕ → Core X N
  | [], _, _, H, _ => H
  | u :: us, t, k, H, keys => histAt rng mdl I L us (t + 1) (keys 0)
      (Function.update H (t + 1) (coreStep mdl I L u (rng.nth k (N + 1)) (H t))) (Fin.tail keys)

theorem histAt_low {rng : Prng K} {mdl : FKModel K X Inp} {I : K → (Fin N → Fl) → Fin N → Fin N}
    {L : K → (Fin N → Fl) → Fin N → Fl} : ∀ (us : List Inp) (t : ℕ) (k : K) (H : ℕ → Core X N)
    (keys : Fin us.length → K) (s : ℕ), s ≤ t → histAt rng mdl I L us t k H keys s = H s
  | [], _, _, _, _, _, _ => rfl
  | u :: us, t, k, H, keys, s, hs => by
    rw [histAt, histAt_low us (t + 1) _ _ _ s (by omega), Function.update_of_ne (by omega)]

theorem histAt_pfAt {rng : Prng K} {mdl : FKModel K X Inp} {I : K → (Fin N → Fl) → Fin N → Fin N}
    {L : K → (Fin N → Fl) → Fin N → Fl} : ∀ (us : List Inp) (t : ℕ) (st : PFState K X Inp N) (H : ℕ → Core X N)
    (keys : Fin us.length → K) (s : ℕ), H t = st.core → s ≤ us.length →
    histAt rng mdl I L us t st.key H keys (t + s) = (pfAt rng mdl I L us s st keys).core
  | [], t, st, H, keys, s, hH, hs => by
    have : s = 0 := by simpa using hs
    subst this
    exact hH
  | u :: us, t, st, H, keys, 0, hH, _ => by
    rw [histAt_low _ _ _ _ _ _ (by omega), add_zero, hH]
    rfl
  | u :: us, t, st, H, keys, s + 1, hH, hs => by
    rw [histAt, pfAt, show t + (s + 1) = t + 1 + s by omega]
    refine histAt_pfAt us (t + 1) (stepTo rng mdl I L st u (keys 0)) _ _ s ?_ (by simpa using hs)
    rw [Function.update_self, hH]
    rfl

/-- The expectation of a function of the whole path, given the path up to time `t`. -/
def pathCont [MeasurableSpace K] (P : Measure K) (mdl : FKModel K X Inp) : List Inp → ℕ → ((ℕ → X) → ℝ≥0∞) →
    (ℕ → X) → ℝ≥0∞
  | [], _, ψ => ψ
  | u :: us, t, ψ => pathQ P mdl u t (pathCont P mdl us (t + 1) ψ)

section run

variable [MeasurableSpace K] [MeasurableSpace X] {P : Measure K} {rng : Rng K}
  {mdl : FKModel K X Inp} {I : K → (Fin N → Fl) → Fin N → Fin N} {L : K → (Fin N → Fl) → Fin N → Fl}

theorem measurable_pathCont [IsProbabilityMeasure P] {ψ : (ℕ → X) → ℝ≥0∞} (hψ : Measurable ψ) :
    ∀ (us : List Inp) (t : ℕ), (∀ u ∈ us, mdl.Regular u) → Measurable (pathCont P mdl us t ψ)
  | [], _, _ => hψ
  | u :: us, t, hu => by
    have hur := hu u (by simp)
    have ih := measurable_pathCont hψ us (t + 1) fun u' h' => hu u' (by simp [h'])
    have h1 : Measurable fun q : (ℕ → X) × K => mdl.propagate q.2 (q.1 t) u :=
      hur.propagate.comp (measurable_snd.prodMk ((measurable_pi_apply t).comp measurable_fst))
    have h2 : Measurable fun q : (ℕ → X) × K => mdl.logPotential (q.1 t) (mdl.propagate q.2 (q.1 t) u) u :=
      hur.logPotential.comp (((measurable_pi_apply t).comp measurable_fst).prodMk h1)
    have h3 : Measurable fun q : (ℕ → X) × K => splice t q.1 (mdl.propagate q.2 (q.1 t) u) :=
      (measurable_splice t).comp (measurable_fst.prodMk h1)
    have h4 : Measurable fun q : (ℕ → X) × K =>
        ENNReal.ofReal (mdl.logPotential (q.1 t) (mdl.propagate q.2 (q.1 t) u) u).lik *
          pathCont P mdl us (t + 1) ψ (splice t q.1 (mdl.propagate q.2 (q.1 t) u)) :=
      (ENNReal.measurable_ofReal.comp (Fl.measurable_lik.comp h2)).mul (ih.comp h3)
    exact h4.lintegral_prod_right'

/-- The continuation in terms of the specification. -/
theorem pathCont_eq [IsProbabilityMeasure P] : ∀ (us : List Inp) (t : ℕ) (ψ : (ℕ → X) → ℝ≥0∞) (p : ℕ → X),
    Measurable ψ → (∀ u ∈ us, mdl.Regular u) → (∀ s, t ≤ s → p s = p t) →
    pathCont P mdl us t ψ p = fkPathExp (us.map (mdl.step P)) (fun q => ψ fun s => if s ≤ t then p s else q (s - t)) (p t)
  | [], t, ψ, p, _, _, hp => by
    rw [pathCont, List.map_nil, fkPathExp]
    congr 1
    funext s
    split_ifs with h
    · rfl
    · exact hp s (by omega)
  | u :: us, t, ψ, p, hψ, hu, hp => by
    have hur := hu u (by simp)
    have hu' : ∀ u' ∈ us, mdl.Regular u' := fun u' h' => hu u' (by simp [h'])
    have hm : Measurable fun x' => pathCont P mdl us (t + 1) ψ (splice t p x') :=
      (measurable_pathCont hψ us (t + 1) hu').comp
        ((measurable_splice t).comp (measurable_const.prodMk measurable_id))
    have hpot : Measurable ((mdl.step P u).pot (p t)) := by
      have h2 : Measurable fun x' => mdl.logPotential (p t) x' u :=
        hur.logPotential.comp (measurable_const.prodMk measurable_id)
      exact ENNReal.measurable_ofReal.comp (Fl.measurable_lik.comp h2)
    rw [pathCont, pathQ, fkQ_eq hur hm, lintegral_withDensity_eq_lintegral_mul _ hpot hm, List.map_cons, fkPathExp]
    refine lintegral_congr fun x' => ?_
    rw [Pi.mul_apply]
    congr 1
    have h1 : splice t p x' (t + 1) = x' := by rw [splice, if_neg (by omega)]
    rw [pathCont_eq us (t + 1) ψ (splice t p x') hψ hu' fun s hs => by
      rw [h1, splice, if_neg (by omega)], h1]
    refine fkPathExp_congr _ _ _ _ fun q hq => ?_
    congr 1
    funext s
    rcases Nat.lt_trichotomy s (t + 1) with h | h | h
    · rw [if_pos (by omega), if_pos (by omega), splice, if_pos (by omega)]
    · subst h
      rw [if_pos le_rfl, if_neg (by omega), h1, show t + 1 - t = 0 + 1 by omega]
      exact hq.symm
    · rw [if_neg (by omega), if_neg (by omega), show s - t = (s - (t + 1)) + 1 by omega]
      rfl

variable [NeZero N] (h : IdealRng rng P)

include h

omit [NeZero N] in
theorem measurable_histAt (hR : UnbiasedWeights P I L) : ∀ (us : List Inp) (t : ℕ),
    (∀ u ∈ us, mdl.Regular u) →
    Measurable fun q : K × (ℕ → Core X N) × (Fin us.length → K) =>
      histAt rng.toPrng mdl I L us t q.1 q.2.1 q.2.2
  | [], _, _ => measurable_fst.comp measurable_snd
  | u :: us, t, hu => by
    have hur := hu u (by simp)
    have ih := measurable_histAt hR us (t + 1) fun u' h' => hu u' (by simp [h'])
    have h0 : Measurable fun q : K × (ℕ → Core X N) × (Fin (us.length + 1) → K) => q.2.1 :=
      measurable_fst.comp measurable_snd
    have h1 : Measurable fun q : K × (ℕ → Core X N) × (Fin (us.length + 1) → K) =>
        coreStep mdl I L u (rng.nth q.1 (N + 1)) (q.2.1 t) :=
      (measurable_coreStep hR hur).comp (((measurable_nthAll h (N + 1)).comp measurable_fst).prodMk
        ((measurable_pi_apply t).comp h0))
    have h1' : Measurable fun q : K × (ℕ → Core X N) × (Fin (us.length + 1) → K) =>
        Function.update q.2.1 (t + 1) (coreStep mdl I L u (rng.nth q.1 (N + 1)) (q.2.1 t)) := by
      refine measurable_pi_iff.mpr fun s => ?_
      by_cases hs : s = t + 1
      · subst hs
        simp only [Function.update_self]
        exact h1
      · simp only [Function.update_of_ne hs]
        exact (measurable_pi_apply s).comp h0
    have h2 : Measurable fun q : K × (ℕ → Core X N) × (Fin (us.length + 1) → K) => q.2.2 :=
      measurable_snd.comp measurable_snd
    have h3 : Measurable fun q : K × (ℕ → Core X N) × (Fin (us.length + 1) → K) => Fin.tail q.2.2 :=
      measurable_pi_iff.mpr fun i => (measurable_pi_apply i.succ).comp h2
    exact ih.comp (((measurable_pi_apply 0).comp h2).prodMk (h1'.prodMk h3))

/-- The expectation of the estimate at the final time, given the history. -/
theorem lintegral_histAt (hR : UnbiasedWeights P I L) {ld : ℕ → X → X → Fl} {ψ : (ℕ → X) → ℝ≥0∞} (hψ : Measurable ψ) :
    ∀ (us : List Inp) (t : ℕ) (H : ℕ → Core X N), (∀ s < t, Measurable fun q : X × X => ld s q.1 q.2) →
    (∀ u ∈ us, mdl.Regular u) →
    (∀ s (hs : s < us.length), BackwardDensity (mdl.step P us[s]) (ld (t + s))) →
    (RevivesDead L ∨ ∀ u ∈ us, ∀ x x', (mdl.logPotential x x' u).IsFin) → Good (RevivesDead L) (H t) →
    ∫⁻ k, ∫⁻ keys, histEst P rng ld (histAt rng.toPrng mdl I L us t k H keys) (t + us.length) ψ
        ∂(Measure.pi fun _ => P) ∂P = histEst P rng ld H t (pathCont P mdl us t ψ)
  | [], t, H, _, _, _, _, _ => by
    have := h.prob
    simp [histAt, pathCont]
  | u :: us, t, H, hm, hu, hld, hd, hH => by
    have := h.prob
    have hur := hu u (by simp)
    have hu' : ∀ u' ∈ us, mdl.Regular u' := fun u' h' => hu u' (by simp [h'])
    have hd' : RevivesDead L ∨ ∀ u ∈ us, ∀ x x', (mdl.logPotential x x' u).IsFin :=
      hd.imp_right fun h1 u' h' => h1 u' (by simp [h'])
    have hd0 : RevivesDead L ∨ ∀ x x', (mdl.logPotential x x' u).IsFin :=
      hd.imp_right fun h1 => h1 u (by simp)
    have hld0 : BackwardDensity (mdl.step P u) (ld t) := hld 0 (by simp)
    have hld' : ∀ s (hs : s < us.length), BackwardDensity (mdl.step P us[s]) (ld (t + 1 + s)) := fun s hs => by
      have := hld (s + 1) (by simpa using hs)
      rw [show t + 1 + s = t + (s + 1) by omega]
      exact this
    have hm' : ∀ s < t + 1, Measurable fun q : X × X => ld s q.1 q.2 := fun s hs => by
      rcases Nat.lt_succ_iff_lt_or_eq.mp hs with h1 | h1
      · exact hm s h1
      · rw [h1]
        exact hld0.measurable
    have hmT : ∀ s < t + 1 + us.length, Measurable fun q : X × X => ld s q.1 q.2 := fun s hs => by
      rcases Nat.lt_or_ge s (t + 1) with h1 | h1
      · exact hm' s h1
      · obtain ⟨r, rfl⟩ := Nat.exists_eq_add_of_le h1
        exact (hld' r (by omega)).measurable
    simp only [histAt, pathCont]
    have h1 : ∀ k, ∫⁻ keys : Fin (us.length + 1) → K, histEst P rng ld (histAt rng.toPrng mdl I L us (t + 1) (keys 0)
          (Function.update H (t + 1) (coreStep mdl I L u (rng.nth k (N + 1)) (H t))) (Fin.tail keys))
          (t + (u :: us).length) ψ ∂(Measure.pi fun _ => P) =
        histEst P rng ld (Function.update H (t + 1) (coreStep mdl I L u (rng.nth k (N + 1)) (H t))) (t + 1)
          (pathCont P mdl us (t + 1) ψ) := by
      intro k
      have hg : Good (RevivesDead L) (Function.update H (t + 1) (coreStep mdl I L u (rng.nth k (N + 1)) (H t)) (t + 1)) := by
        rw [Function.update_self]
        exact Good.step hH.logZ hur.isLog _ (hH.isLogits_L hR.isLogits _) hd0
      rw [← lintegral_histAt hR hψ us (t + 1) _ hm' hu' hld' hd' hg, lintegral_pi_cons P]
      · simp only [Fin.cons_zero, Fin.tail_cons, List.length_cons]
        rw [show t + (us.length + 1) = t + 1 + us.length by omega]
      · have h2 : Measurable fun keys : Fin (us.length + 1) → K => Fin.tail keys :=
          measurable_pi_iff.mpr fun i => measurable_pi_apply i.succ
        rw [List.length_cons, show t + (us.length + 1) = t + 1 + us.length by omega]
        exact (measurable_histEst h hmT hψ).comp ((measurable_histAt h hR us (t + 1) hu').comp
          ((measurable_pi_apply 0).prodMk (measurable_const.prodMk h2)))
    have hc := measurable_pathCont (P := P) hψ us (t + 1) hu'
    have h3 : Measurable fun ks : Fin (N + 1) → K => histEst P rng ld
        (Function.update H (t + 1) (coreStep mdl I L u ks (H t))) (t + 1) (pathCont P mdl us (t + 1) ψ) := by
      refine (measurable_histEst h hm' hc).comp ?_
      refine measurable_pi_iff.mpr fun s => ?_
      by_cases hs : s = t + 1
      · subst hs
        simp only [Function.update_self]
        exact (measurable_coreStep hR hur).comp (measurable_id.prodMk measurable_const)
      · simp only [Function.update_of_ne hs]
        exact measurable_const
    refine (lintegral_congr h1).trans ?_
    rw [(h.split (N + 1)).lintegral_comp h3, lintegral_histEst_step h hR hur hld0 hc hH]

/-- The whole run. -/
theorem lintegral_histEst_run (hR : UnbiasedWeights P I L) (hind : IndepSplit rng.toPrng P) {u0 : Inp}
    (h0 : Measurable fun k => mdl.initSample k u0) {ld : ℕ → X → X → Fl} {ψ : (ℕ → X) → ℝ≥0∞} (hψ : Measurable ψ)
    (us : List Inp) (hu : ∀ u ∈ us, mdl.Regular u)
    (hld : ∀ s (hs : s < us.length), BackwardDensity (mdl.step P us[s]) (ld s))
    (hd : RevivesDead L ∨ ∀ u ∈ us, ∀ x x', (mdl.logPotential x x' u).IsFin) :
    ∫⁻ k, histEst P rng ld (fun t => (pfRun rng.toPrng mdl I L u0 us k t).core) us.length ψ ∂P =
      fkExp (mdl.init P u0) (us.map (mdl.step P)) ψ := by
  have := h.prob
  have hgood : ∀ a : Fin N → K, Good (RevivesDead L) (coreInit mdl u0 a) := fun a => good_coreInit u0 a
  have hmT : ∀ s < us.length, Measurable fun q : X × X => ld s q.1 q.2 := fun s hs => (hld s hs).measurable
  -- the run as a function of its keys
  have h1 : ∀ k, histEst P rng ld (fun t => (pfRun rng.toPrng mdl I L u0 us k t).core) us.length ψ =
      histEst P rng ld (histAt rng.toPrng mdl I L us 0 (rng.nth k (us.length + 1) 0)
        (fun _ => coreInit mdl u0 (rng.nth (rng.nth k (us.length + 1) 0) N))
        (Fin.tail (rng.nth k (us.length + 1)))) us.length ψ := by
    intro k
    have h2 : ∀ t ≤ us.length, histAt rng.toPrng mdl I L us 0 (rng.nth k (us.length + 1) 0)
        (fun _ => coreInit mdl u0 (rng.nth (rng.nth k (us.length + 1) 0) N))
        (Fin.tail (rng.nth k (us.length + 1))) t = (pfRun rng.toPrng mdl I L u0 us k t).core := by
      intro t ht
      have h3 := histAt_pfAt (rng := rng.toPrng) (mdl := mdl) (I := I) (L := L) us 0
        (pfInit rng.toPrng mdl N u0 (rng.nth k (us.length + 1) 0))
        (fun _ => coreInit mdl u0 (rng.nth (rng.nth k (us.length + 1) 0) N))
        (Fin.tail (rng.nth k (us.length + 1))) t rfl ht
      rw [Nat.zero_add] at h3
      exact h3
    rw [histEst, histEst, h2 _ le_rfl]
    congr 1
    refine Finset.sum_congr rfl fun i _ => ?_
    congr 1
    exact backExp_congr _ i _ _ (fun s hs => (h2 s hs).symm) fun p _ => rfl
  simp only [h1]
  have h2 : Measurable fun keys : Fin (us.length + 1) → K => Fin.tail keys :=
    measurable_pi_iff.mpr fun i => measurable_pi_apply i.succ
  have h3 : Measurable fun keys : Fin (us.length + 1) → K =>
      (fun _ => coreInit mdl u0 (rng.nth (keys 0) N) : ℕ → Core X N) :=
    measurable_pi_iff.mpr fun _ => (measurable_coreInit h0).comp ((measurable_nthAll h N).comp (measurable_pi_apply 0))
  have h4 : Measurable fun keys : Fin (us.length + 1) → K =>
      histEst P rng ld (histAt rng.toPrng mdl I L us 0 (keys 0) (fun _ => coreInit mdl u0 (rng.nth (keys 0) N))
        (Fin.tail keys)) us.length ψ :=
    (measurable_histEst h hmT hψ).comp ((measurable_histAt h hR us 0 hu).comp
      ((measurable_pi_apply 0).prodMk (h3.prodMk h2)))
  rw [(h.split (us.length + 1)).lintegral_comp h4, lintegral_pi_cons P h4]
  simp only [Fin.cons_zero, Fin.tail_cons]
  -- the expectation over the initial particles
  have hinit : ∀ {f : (ℕ → X) → ℝ≥0∞}, Measurable f →
      ∫⁻ a, histEst P rng ld (fun _ => (coreInit mdl u0 a : Core X N)) 0 f ∂(Measure.pi fun _ => P) =
        ∫⁻ x, f (fun _ => x) ∂mdl.init P u0 := by
    intro f hf
    have h5 : Measurable fun x : X => f fun _ => x := hf.comp (measurable_pi_iff.mpr fun _ => measurable_id)
    exact lintegral_coreInit (N := N) h0 h5
  have hfinal : ∫⁻ x, pathCont P mdl us 0 ψ (fun _ => x) ∂mdl.init P u0 = fkExp (mdl.init P u0) (us.map (mdl.step P)) ψ := by
    rw [fkExp]
    refine lintegral_congr fun x => ?_
    rw [pathCont_eq us 0 ψ (fun _ => x) hψ hu fun _ _ => rfl]
    refine fkPathExp_congr _ _ _ _ fun q hq => ?_
    congr 1
    funext s
    split_ifs with hs
    · rw [show s = 0 by omega, hq]
    · rfl
  rw [← hfinal]
  match us with
  | [] =>
    simp only [histAt, pathCont, List.length_nil, lintegral_const, measure_univ, mul_one]
    rw [← hinit hψ]
    refine (h.split N).lintegral_comp (f := fun a => histEst P rng ld (fun _ => (coreInit mdl u0 a : Core X N)) 0 ψ) ?_
    exact (measurable_histEst h (by simp) hψ).comp (measurable_pi_iff.mpr fun _ => measurable_coreInit h0)
  | u :: us =>
    have hur := hu u (by simp)
    have hu' : ∀ u' ∈ us, mdl.Regular u' := fun u' h' => hu u' (by simp [h'])
    have hd' : RevivesDead L ∨ ∀ u ∈ us, ∀ x x', (mdl.logPotential x x' u).IsFin :=
      hd.imp_right fun h1 u' h' => h1 u' (by simp [h'])
    have hd0 : RevivesDead L ∨ ∀ x x', (mdl.logPotential x x' u).IsFin :=
      hd.imp_right fun h1 => h1 u (by simp)
    have hld0 : BackwardDensity (mdl.step P u) (ld 0) := hld 0 (by simp)
    have hm1 : ∀ s < 1, Measurable fun q : X × X => ld s q.1 q.2 := fun s hs => by
      rw [show s = 0 by omega]
      exact hld0.measurable
    have hld' : ∀ s (hs : s < us.length), BackwardDensity (mdl.step P us[s]) (ld (1 + s)) := fun s hs => by
      have := hld (s + 1) (by simpa using hs)
      rw [show 1 + s = s + 1 by omega]
      exact this
    have hmT' : ∀ s < 1 + us.length, Measurable fun q : X × X => ld s q.1 q.2 := fun s hs =>
      hmT s (by simpa [add_comm] using hs)
    have hc := measurable_pathCont (P := P) hψ us 1 hu'
    have h5 : ∀ k, ∫⁻ keys : Fin (us.length + 1) → K, histEst P rng ld (histAt rng.toPrng mdl I L (u :: us) 0 k
          (fun _ => coreInit mdl u0 (rng.nth k N)) keys) (u :: us).length ψ ∂(Measure.pi fun _ => P) =
        histEst P rng ld (Function.update (fun _ => coreInit mdl u0 (rng.nth k N)) 1
          (coreStep mdl I L u (rng.nth k (N + 1)) (coreInit mdl u0 (rng.nth k N)))) 1 (pathCont P mdl us 1 ψ) := by
      intro k
      have hg : Good (RevivesDead L) (Function.update (fun _ => (coreInit mdl u0 (rng.nth k N) : Core X N)) 1
          (coreStep mdl I L u (rng.nth k (N + 1)) (coreInit mdl u0 (rng.nth k N))) 1) := by
        rw [Function.update_self]
        exact Good.step (hgood _).logZ hur.isLog _ ((hgood _).isLogits_L hR.isLogits _) hd0
      rw [← lintegral_histAt h hR hψ us 1 _ hm1 hu' hld' hd' hg, lintegral_pi_cons P]
      · simp only [histAt, Fin.cons_zero, Fin.tail_cons, List.length_cons, zero_add]
        rw [add_comm us.length 1]
      · have h2 : Measurable fun keys : Fin (us.length + 1) → K => Fin.tail keys :=
          measurable_pi_iff.mpr fun i => measurable_pi_apply i.succ
        have e : (u :: us).length = 1 + us.length := by rw [List.length_cons, add_comm]
        simp only [histAt, e]
        exact (measurable_histEst h hmT' hψ).comp ((measurable_histAt h hR us 1 hu').comp
          ((measurable_pi_apply 0).prodMk (measurable_const.prodMk h2)))
    refine (lintegral_congr h5).trans ?_
    have h6 : Measurable fun q : (Fin N → K) × (Fin (N + 1) → K) =>
        histEst P rng ld (Function.update (fun _ => coreInit mdl u0 q.1) 1
          (coreStep mdl I L u q.2 (coreInit mdl u0 q.1))) 1 (pathCont P mdl us 1 ψ) := by
      refine (measurable_histEst h hm1 hc).comp ?_
      refine measurable_pi_iff.mpr fun s => ?_
      have hci : Measurable fun q : (Fin N → K) × (Fin (N + 1) → K) => (coreInit mdl u0 q.1 : Core X N) :=
        (measurable_coreInit h0).comp measurable_fst
      by_cases hs : s = 1
      · subst hs
        simp only [Function.update_self]
        exact (measurable_coreStep hR hur).comp (measurable_snd.prodMk hci)
      · simp only [Function.update_of_ne hs]
        exact hci
    refine ((hind N (N + 1) (by omega)).lintegral_comp h6).trans ?_
    rw [lintegral_prod _ h6.aemeasurable]
    have h7 : ∀ a : Fin N → K, ∫⁻ ks, histEst P rng ld (Function.update (fun _ => coreInit mdl u0 a) 1
          (coreStep mdl I L u ks (coreInit mdl u0 a))) 1 (pathCont P mdl us 1 ψ) ∂(Measure.pi fun _ => P) =
        histEst P rng ld (fun _ => (coreInit mdl u0 a : Core X N)) 0 (pathCont P mdl (u :: us) 0 ψ) := fun a =>
      lintegral_histEst_step h hR hur hld0 hc (H := fun _ => (coreInit mdl u0 a : Core X N)) (hgood a)
    simp only [h7]
    exact hinit (measurable_pathCont hψ (u :: us) 0 hu)

end run

end

end Cuthbert.SMC
