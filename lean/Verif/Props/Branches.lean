import Verif.Props.ParticleFilterRuns
import Verif.Props.ParticleSmoother
import Verif.Lemmas.Random
import Verif.Lemmas.SMCResamplers

/-!
# Properties: several continuations of one filter state (C118)

The full property is: continuing one state of a particle filter by steps that are prepared with independent keys gives
independent realisations of the step. It is false of the code, which draws the step with the key of the old state.
-/

namespace Cuthbert.SMC
open MeasureTheory Set Resampling Spec
open scoped ENNReal

noncomputable section

variable {K X Inp : Type} {N : ℕ}

/-! ## C118 -/

/-- The state `s` continued by a step with inputs `u` that is prepared with the key `k`. -/
def continued (F : FilterObj Inp K (Except Err (PFState K X Inp N))) (s : PFState K X Inp N) (u : Inp) (k : K) :
    Except Err (PFState K X Inp N) :=
  F.filterCombine (.ok s) (F.filterPrepare u (some k))

/-- C118 is false of the code: the key that prepares a step has no influence on the particles, weights, ancestors and
log normalising constant of that step, with any resampling function. -/
theorem continuation_ignores_key (rng : Prng K) (mdl : FKModel K X Inp) (dummy : X) (R : Resampler K N X)
    (s : PFState K X Inp N) (u : Inp) (k k' : K) :
    continued (particleFilter rng mdl dummy N R) s u k =
      (continued (particleFilter rng mdl dummy N R) s u k').map fun q => { q with key := k } := by
  change filterCombine rng mdl R s _ = (filterCombine rng mdl R s _).map _
  unfold filterCombine
  dsimp only
  generalize R (rng.nth s.key (N + 1) 0) s.logWeights s.particles N = r
  cases r <;> rfl

/-- The same for the marginal particle filter. -/
theorem marginal_continuation_ignores_key (rng : Prng K) (mdl : FKModel K X Inp) (dummy : X) (R : Resampler K N X)
    (s : MPFState K X Inp N) (u : Inp) (k k' : K) :
    (marginalParticleFilter rng mdl dummy N R).filterCombine (.ok s)
        ((marginalParticleFilter rng mdl dummy N R).filterPrepare u (some k)) =
      ((marginalParticleFilter rng mdl dummy N R).filterCombine (.ok s)
        ((marginalParticleFilter rng mdl dummy N R).filterPrepare u (some k'))).map fun q => { q with key := k } := by
  change marginalFilterCombine rng mdl R s _ = (marginalFilterCombine rng mdl R s _).map _
  unfold marginalFilterCombine
  dsimp only
  generalize R (rng.nth s.key (N + 1) 0) s.logWeights s.particles N = r
  cases r <;> rfl

/-- The documentation's example of online prediction: a state is continued by a forecast (inputs `u`, without the
observation) and by a filter step (inputs `u'`), prepared with different keys. If the inputs move particles in the same
way, forecast and filter step have the same particles and ancestors. -/
theorem forecast_same_particles (rng : Prng K) (mdl : FKModel K X Inp) (dummy : X) {R : Resampler K N X}
    {I : K → (Fin N → Fl) → Fin N → Fin N} {L : K → (Fin N → Fl) → Fin N → Fl} (hR : Uses R I L)
    (s : PFState K X Inp N) {u u' : Inp} (hu : ∀ k x, mdl.propagate k x u = mdl.propagate k x u') (k k' : K) :
    ∃ q q', continued (particleFilter rng mdl dummy N R) s u k = .ok q ∧
      continued (particleFilter rng mdl dummy N R) s u' k' = .ok q' ∧
      q.particles = q'.particles ∧ q.ancestors = q'.ancestors ∧ q.key = k ∧ q'.key = k' := by
  refine ⟨_, _, filterCombine_eq hR s _, filterCombine_eq hR s _, ?_, rfl, rfl, rfl⟩
  funext m
  exact hu _ _

section law

variable [MeasurableSpace K] {rng : Rng K} {P : Measure K}

/-- A step that tosses a coin for every particle. -/
def tossModel (rng : Rng K) : FKModel K Bool Unit where
  initSample _ _ := false
  propagate k _ _ := decide (rng.uniform0 k < 1 / 2)
  logPotential _ _ _ := 0

/-- What C118 would demand of `n` forecasts of one particle: they are independent. -/
def IndependentForecasts (rng : Rng K) (P : Measure K) (R : Resampler K 1 Bool) : Prop :=
  ∀ k0 : Fin 1 → Bool, (P.prod (P.prod P)) {q | ∀ k ∈ [q.2.1, q.2.2],
      (continued (particleFilter rng.toPrng (tossModel rng) false 1 R) ⟨q.1, k0, fun _ => 0, id, (), 0⟩ () k).map
        (fun s => s.particles 0) = .ok true} = 1 / 4

/-- Two forecasts of a fair coin that are prepared with independent keys are both heads with probability `1/2`. -/
theorem forecasts_agree (h : IdealRng rng P) {R : Resampler K 1 Bool} {I : K → (Fin 1 → Fl) → Fin 1 → Fin 1}
    {L : K → (Fin 1 → Fl) → Fin 1 → Fl} (hR : Uses R I L) (k0 : Fin 1 → Bool) :
    (P.prod (P.prod P)) {q | ∀ k ∈ [q.2.1, q.2.2],
      (continued (particleFilter rng.toPrng (tossModel rng) false 1 R) ⟨q.1, k0, fun _ => 0, id, (), 0⟩ () k).map
        (fun s => s.particles 0) = .ok true} = 1 / 2 := by
  have := h.prob
  have h1 : {q : K × K × K | ∀ k ∈ [q.2.1, q.2.2],
      (continued (particleFilter rng.toPrng (tossModel rng) false 1 R) ⟨q.1, k0, fun _ => 0, id, (), 0⟩ () k).map
        (fun s => s.particles 0) = .ok true} = {k | rng.uniform0 (rng.nth k 2 1) < 1 / 2} ×ˢ univ := by
    ext q
    have h2 : ∀ k, (continued (particleFilter rng.toPrng (tossModel rng) false 1 R)
        ⟨q.1, k0, fun _ => 0, id, (), 0⟩ () k).map (fun s => s.particles 0) =
        .ok (decide (rng.uniform0 (rng.nth q.1 2 1) < 1 / 2)) := fun k => by
      rw [show continued (particleFilter rng.toPrng (tossModel rng) false 1 R)
        ⟨q.1, k0, fun _ => 0, id, (), 0⟩ () k = _ from filterCombine_eq hR _ _]
      rfl
    simp [h2]
  have h3 : MeasurePreserving (fun k => rng.uniform0 (rng.nth k 2 1)) P unif :=
    h.uniform0.comp (h.measurePreserving_nth 2 1)
  rw [h1, Measure.prod_prod, measure_univ, mul_one]
  have h4 := h3.measure_preimage (s := Iio (1 / 2)) measurableSet_Iio.nullMeasurableSet
  rw [show {k | rng.uniform0 (rng.nth k 2 1) < 1 / 2} = (fun k => rng.uniform0 (rng.nth k 2 1)) ⁻¹' Iio (1 / 2) from rfl,
    h4, unif, Measure.restrict_apply measurableSet_Iio, show Iio (1 / 2 : ℝ) ∩ Ico 0 1 = Ico 0 (1 / 2) from ?_,
    Real.volume_Ico]
  · rw [sub_zero, ENNReal.ofReal_div_of_pos (by norm_num)]
    simp
  · ext x
    simp only [mem_inter_iff, mem_Iio, mem_Ico]
    constructor
    · rintro ⟨a, b, -⟩
      exact ⟨b, a⟩
    · rintro ⟨a, b⟩
      exact ⟨b, a, by linarith⟩

/-- C118 fails for every ideal generator and every resampling function. -/
theorem forecasts_not_independent (h : IdealRng rng P) {R : Resampler K 1 Bool}
    {I : K → (Fin 1 → Fl) → Fin 1 → Fin 1} {L : K → (Fin 1 → Fl) → Fin 1 → Fl} (hR : Uses R I L) :
    ¬IndependentForecasts rng P R := by
  intro h1
  have h2 := h1 fun _ => false
  rw [forecasts_agree h hR] at h2
  have h3 := congrArg ENNReal.toReal h2
  norm_num at h3

variable [MeasurableSpace X] {mdl : FKModel K X Inp} {I : K → (Fin N → Fl) → Fin N → Fin N}
  {L : K → (Fin N → Fl) → Fin N → Fl}

/-- C118, what is true: two continuations that are prepared with independent keys differ from their second step on.
Given the common particles after the first step, the results of the second steps are independent, and each has the law
of a step whose random numbers come from a fresh key. Missing: the first step, see `forecasts_not_independent`. -/
theorem continuations_independent_partial (h : IdealRng rng P) (hI : UnbiasedWeights P I L) {R : Resampler K N X}
    (hR : Uses R I L) (dummy : X) (s : PFState K X Inp N) (u u2 : Inp) (hu : mdl.Regular u2) (k3 : K) :
    ∃ (x : Fin N → X) (w : Fin N → Fl) (S : K → PFState K X Inp N) (S2 : K → PFState K X Inp N),
      (∀ k, continued (particleFilter rng.toPrng mdl dummy N R) s u k = .ok (S k)) ∧
      (∀ k, (S k).key = k ∧ (S k).particles = x ∧ (S k).logWeights = w) ∧
      (∀ k, continued (particleFilter rng.toPrng mdl dummy N R) (S k) u2 k3 = .ok (S2 k)) ∧
      (∀ k m, (S2 k).particles m = mdl.propagate (rng.nth k (N + 1) m.succ) (x (I (rng.nth k (N + 1) 0) w m)) u2) ∧
      (P.prod P).map (fun q => ((S2 q.1).particles, (S2 q.2).particles)) =
        (P.map fun k => (S2 k).particles).prod (P.map fun k => (S2 k).particles) := by
  have := h.prob
  refine ⟨_, _, fun k => stepTo rng.toPrng mdl I L s u k,
    fun k => stepTo rng.toPrng mdl I L (stepTo rng.toPrng mdl I L s u k) u2 k3,
    fun k => filterCombine_eq hR s _, fun k => ⟨rfl, rfl, rfl⟩, fun k => filterCombine_eq hR _ _, fun k m => rfl, ?_⟩
  have hm : Measurable fun k =>
      (stepTo rng.toPrng mdl I L (stepTo rng.toPrng mdl I L s u k) u2 k3).particles := by
    have h1 := measurable_coreStep hI hu
    have h2 : Measurable fun k => (rng.nth k (N + 1), coreStep mdl I L u (rng.nth s.key (N + 1)) s.core) :=
      (measurable_nthAll h (N + 1)).prodMk measurable_const
    exact measurable_fst.comp (h1.comp h2)
  exact (Measure.map_prod_map P P hm hm).symm

end law

/-- The hypotheses of C118 are met by ideal keys and multinomial resampling. -/
example : ∃ rng : Rng Key, ¬IndependentForecasts rng keyLaw (multinomial rng .cpu) :=
  let ⟨rng, h, _⟩ := exists_ideal_prefix
  ⟨rng, forecasts_not_independent h (uses_multinomial rng .cpu)⟩

example : ∃ rng : Rng Key, ∀ u2, (tossModel rng).Regular u2 ∧ UnbiasedWeights keyLaw
    (fun k l => multinomialIdx rng .cpu l 5 k) (zeroLogits : Key → (Fin 5 → Fl) → Fin 5 → Fl) := by
  obtain ⟨rng, h, _⟩ := exists_ideal_prefix
  have := h.prob
  refine ⟨rng, fun u2 => ⟨⟨?_, measurable_const, fun _ _ => trivial⟩, unbiasedWeights_multinomial h .cpu⟩⟩
  refine measurable_to_bool ?_
  have : (fun q : Key × Bool => (tossModel rng).propagate q.1 q.2 u2) ⁻¹' {true} =
      (fun q : Key × Bool => rng.uniform0 q.1) ⁻¹' Iio (1 / 2) := by
    ext q
    simp [tossModel]
  rw [this]
  exact (h.uniform0.measurable.comp measurable_fst) measurableSet_Iio

end

end Cuthbert.SMC
