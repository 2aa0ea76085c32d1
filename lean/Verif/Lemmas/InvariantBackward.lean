import Verif.Lemmas.BackwardSampling

/-!
# Lemmas about backward moves that start from the ancestors of the particle filter
-/

namespace Cuthbert.SMC
open MeasureTheory Set Resampling Spec
open scoped ENNReal

noncomputable section

variable {K X Inp : Type} {N n : ℕ}

/-- A core and the ancestors of its particles. -/
abbrev Hist (X : Type) (N : ℕ) := Core X N × (Fin N → Fin N)

/-- One step of the filter, with the ancestors. -/
def stepH (mdl : FKModel K X Inp) (I : K → (Fin N → Fl) → Fin N → Fin N) (L : K → (Fin N → Fl) → Fin N → Fl) (u : Inp)
    (ks : Fin (N + 1) → K) (c : Core X N) : Hist X N := (coreStep mdl I L u ks c, I (ks 0) c.2.1)

/-- The expectation of `ψ` over the paths that backward moves with the probabilities `κ` give for particle `i` at time
`t`. -/
def invExp (κ : ℕ → Core X N → X → Fin N → Fin N → ℝ≥0∞) (H : ℕ → Hist X N) :
    (t : ℕ) → Fin N → ((ℕ → X) → ℝ≥0∞) → ℝ≥0∞
  | 0, i, ψ => ψ fun _ => (H 0).1.1 i
  | t + 1, i, ψ => ∑ j, κ t (H t).1 ((H (t + 1)).1.1 i) ((H (t + 1)).2 i) j *
      invExp κ H t j fun p => ψ (splice t p ((H (t + 1)).1.1 i))

/-- The estimate of the expectation of `ψ` at time `t`. -/
def invEst (κ : ℕ → Core X N → X → Fin N → Fin N → ℝ≥0∞) (H : ℕ → Hist X N) (t : ℕ) (ψ : (ℕ → X) → ℝ≥0∞) : ℝ≥0∞ :=
  ENNReal.ofReal (H t).1.2.2.lik * ∑ i, ENNReal.ofReal (nw (H t).1.2.1 i) * invExp κ H t i ψ

/-- The moves leave the backward distribution of every later state invariant. -/
structure InvariantKernel [MeasurableSpace X] (ld : X → X → Fl) (κ : Core X N → X → Fin N → Fin N → ℝ≥0∞) : Prop where
  measurable : ∀ i j, Measurable fun q : Core X N × X => κ q.1 q.2 i j
  invariant : ∀ c : Core X N, IsLogits c.2.1 → ∀ x' j,
    ∑ i, ENNReal.ofReal (nw c.2.1 i) * ENNReal.ofReal (ld (c.1 i) x').lik * κ c x' i j =
      ENNReal.ofReal (nw c.2.1 j) * ENNReal.ofReal (ld (c.1 j) x').lik

section invExp

variable {κ : ℕ → Core X N → X → Fin N → Fin N → ℝ≥0∞} {H H' : ℕ → Hist X N}

theorem invExp_congr : ∀ (t : ℕ) (i : Fin N) (ψ ψ' : (ℕ → X) → ℝ≥0∞), (∀ s ≤ t, (H s).1 = (H' s).1) →
    (∀ s, 0 < s → s ≤ t → (H s).2 = (H' s).2) →
    (∀ p : ℕ → X, (∀ s, t ≤ s → p s = (H t).1.1 i) → ψ p = ψ' p) →
    invExp κ H t i ψ = invExp κ H' t i ψ'
  | 0, i, ψ, ψ', hH, _, hψ => by
    rw [invExp, invExp, ← hH 0 le_rfl]
    exact hψ _ fun s _ => rfl
  | t + 1, i, ψ, ψ', hH, hA, hψ => by
    rw [invExp, invExp, ← hH (t + 1) le_rfl, ← hH t (by omega), ← hA (t + 1) (by omega) le_rfl]
    refine Finset.sum_congr rfl fun j _ => ?_
    congr 1
    refine invExp_congr t j _ _ (fun s hs => hH s (by omega)) (fun s h0 hs => hA s h0 (by omega))
      fun p _ => hψ _ fun s hs => ?_
    rw [splice, if_neg (by omega)]

theorem invExp_const_mul (a : ℝ≥0∞) : ∀ (t : ℕ) (i : Fin N) (ψ : (ℕ → X) → ℝ≥0∞),
    invExp κ H t i (fun p => a * ψ p) = a * invExp κ H t i ψ
  | 0, i, ψ => rfl
  | t + 1, i, ψ => by
    rw [invExp, invExp, Finset.mul_sum]
    refine Finset.sum_congr rfl fun j _ => ?_
    rw [invExp_const_mul a t j fun p => ψ (splice t p ((H (t + 1)).1.1 i)), mul_left_comm]

theorem measurable_invExp_fixed {Y : Type*} [MeasurableSpace Y] : ∀ (t : ℕ) (i : Fin N) (ψ : Y → (ℕ → X) → ℝ≥0∞),
    (∀ p, Measurable fun y => ψ y p) → Measurable fun y => invExp κ H t i (ψ y)
  | 0, i, ψ, h => h _
  | t + 1, i, ψ, h => by
    refine Finset.measurable_sum _ fun j _ => ?_
    exact (measurable_invExp_fixed t j (fun y p => ψ y (splice t p ((H (t + 1)).1.1 i))) fun p => h _).const_mul _

theorem invExp_lintegral {Y : Type*} [MeasurableSpace Y] (ν : Measure Y) : ∀ (t : ℕ) (i : Fin N)
    (ψ : Y → (ℕ → X) → ℝ≥0∞), (∀ p, Measurable fun y => ψ y p) →
    invExp κ H t i (fun p => ∫⁻ y, ψ y p ∂ν) = ∫⁻ y, invExp κ H t i (ψ y) ∂ν
  | 0, i, ψ, h => rfl
  | t + 1, i, ψ, h => by
    simp only [invExp]
    have hm : ∀ j, Measurable fun y => invExp κ H t j fun p => ψ y (splice t p ((H (t + 1)).1.1 i)) :=
      fun j => measurable_invExp_fixed t j (fun y p => ψ y (splice t p ((H (t + 1)).1.1 i))) fun p => h _
    rw [lintegral_finsetSum' _ fun j _ => ((hm j).const_mul _).aemeasurable]
    refine Finset.sum_congr rfl fun j _ => ?_
    rw [lintegral_const_mul _ (hm j),
      invExp_lintegral ν t j (fun y p => ψ y (splice t p ((H (t + 1)).1.1 i))) fun p => h _]

end invExp

section measurable

variable [MeasurableSpace X] {κ : ℕ → Core X N → X → Fin N → Fin N → ℝ≥0∞}

theorem measurable_invExp {T : ℕ} (hκ : ∀ t < T, ∀ i j, Measurable fun q : Core X N × X => κ t q.1 q.2 i j)
    {Ω : Type*} [MeasurableSpace Ω] {H : Ω → ℕ → Hist X N} (hH : Measurable H) :
    ∀ (t : ℕ) (i : Fin N) (ψ : Ω → (ℕ → X) → ℝ≥0∞), t ≤ T → (Measurable fun q : Ω × (ℕ → X) => ψ q.1 q.2) →
    Measurable fun ω => invExp κ (H ω) t i (ψ ω)
  | 0, i, ψ, _, hψ => by
    have h1 : Measurable fun ω => (H ω 0).1.1 i :=
      (measurable_pi_apply i).comp (measurable_fst.comp (measurable_fst.comp ((measurable_pi_apply 0).comp hH)))
    exact hψ.comp (measurable_id.prodMk (measurable_pi_iff.mpr fun _ => h1))
  | t + 1, i, ψ, ht, hψ => by
    have h0 : Measurable fun ω => H ω (t + 1) := (measurable_pi_apply (t + 1)).comp hH
    have h1 : Measurable fun ω => (H ω (t + 1)).1.1 i :=
      (measurable_pi_apply i).comp (measurable_fst.comp (measurable_fst.comp h0))
    have h2 : Measurable fun ω => (H ω t).1 := measurable_fst.comp ((measurable_pi_apply t).comp hH)
    have h2' : Measurable fun ω => (H ω (t + 1)).2 i := (measurable_pi_apply i).comp (measurable_snd.comp h0)
    refine Finset.measurable_sum _ fun j _ => ?_
    refine Measurable.mul ?_ ?_
    · have h4 : Measurable fun q : (Core X N × X) × Fin N => κ t q.1.1 q.1.2 q.2 j :=
        measurable_from_prod_countable_left fun a => hκ t (by omega) a j
      exact h4.comp ((h2.prodMk h1).prodMk h2')
    refine measurable_invExp hκ hH t j (fun ω p => ψ ω (splice t p ((H ω (t + 1)).1.1 i))) (by omega) ?_
    have h3 : Measurable fun q : Ω × (ℕ → X) => splice t q.2 ((H q.1 (t + 1)).1.1 i) :=
      (measurable_splice t).comp (measurable_snd.prodMk (h1.comp measurable_fst))
    exact hψ.comp (measurable_fst.prodMk h3)

theorem measurable_invEst {t : ℕ} (hκ : ∀ s < t, ∀ i j, Measurable fun q : Core X N × X => κ s q.1 q.2 i j)
    {ψ : (ℕ → X) → ℝ≥0∞} (hψ : Measurable ψ) : Measurable fun H : ℕ → Hist X N => invEst κ H t ψ := by
  have h0 : Measurable fun H : ℕ → Hist X N => (H t).1 := measurable_fst.comp (measurable_pi_apply t)
  have h1 : Measurable fun H : ℕ → Hist X N => ENNReal.ofReal (H t).1.2.2.lik :=
    ENNReal.measurable_ofReal.comp (Fl.measurable_lik.comp (measurable_snd.comp (measurable_snd.comp h0)))
  refine h1.mul (Finset.measurable_sum _ fun i _ => ?_)
  have h2 : Measurable fun H : ℕ → Hist X N => ENNReal.ofReal (nw (H t).1.2.1 i) :=
    ENNReal.measurable_ofReal.comp ((measurable_nw i).comp (measurable_fst.comp (measurable_snd.comp h0)))
  exact h2.mul (measurable_invExp hκ measurable_id t i (fun _ => ψ) le_rfl (hψ.comp measurable_snd))

end measurable

/-! ### One step -/

section step

variable [MeasurableSpace K] [MeasurableSpace X] [NeZero N] {P : Measure K} {mdl : FKModel K X Inp}
  {I : K → (Fin N → Fl) → Fin N → Fin N} {L : K → (Fin N → Fl) → Fin N → Fl} {u : Inp}

/-- The model in which every particle carries an index. -/
def tagged (mdl : FKModel K X Inp) : FKModel K (X × Fin N) Inp where
  initSample k u := (mdl.initSample k u, 0)
  propagate k x u := (mdl.propagate k x.1 u, x.2)
  logPotential x x' u := mdl.logPotential x.1 x'.1 u

theorem tagged_regular (hu : mdl.Regular u) : (tagged (N := N) mdl).Regular u where
  propagate := (hu.propagate.comp (measurable_fst.prodMk (measurable_fst.comp measurable_snd))).prodMk
    (measurable_snd.comp measurable_snd)
  logPotential := hu.logPotential.comp ((measurable_fst.comp measurable_fst).prodMk
    (measurable_fst.comp measurable_snd))
  isLog _ _ := hu.isLog _ _

/-- One step, for functions of the new particle and the index of its parent. -/
theorem lintegral_stepH [IsProbabilityMeasure P] (hR : UnbiasedWeights P I L) (hu : mdl.Regular u)
    {f : X × Fin N → ℝ≥0∞} (hf : Measurable f) {c : Core X N} (hc : Good (RevivesDead L) c) :
    ∫⁻ ks, ENNReal.ofReal (coreStep mdl I L u ks c).2.2.lik * ∑ i, ENNReal.ofReal (nw (coreStep mdl I L u ks c).2.1 i) *
        f ((coreStep mdl I L u ks c).1 i, I (ks 0) c.2.1 i) ∂(Measure.pi fun _ => P) =
      ENNReal.ofReal c.2.2.lik * ∑ i, ENNReal.ofReal (nw c.2.1 i) * fkQ P mdl u (fun x' => f (x', i)) (c.1 i) := by
  obtain ⟨c', hc1⟩ : ∃ c' : Core (X × Fin N) N, c' = (fun i => (c.1 i, i), c.2) := ⟨_, rfl⟩
  have hc' : Good (RevivesDead L) c' := by
    rw [hc1]
    exact ⟨hc.weights, hc.logZ, hc.alive⟩
  have h1 : ∀ ks, ENNReal.ofReal (coreStep mdl I L u ks c).2.2.lik *
      ∑ i, ENNReal.ofReal (nw (coreStep mdl I L u ks c).2.1 i) *
        f ((coreStep mdl I L u ks c).1 i, I (ks 0) c.2.1 i) = est f (coreStep (tagged mdl) I L u ks c') := fun ks => by
    rw [hc1]
    rfl
  rw [lintegral_congr h1, lintegral_coreStep hR (tagged_regular hu) hf hc', hc1]
  rfl

theorem lintegral_invEst_step [IsProbabilityMeasure P] (hR : UnbiasedWeights P I L)
    (hu : mdl.Regular u) {ld : X → X → Fl} {κ : ℕ → Core X N → X → Fin N → Fin N → ℝ≥0∞} {t : ℕ}
    (hld : BackwardDensity (mdl.step P u) ld) (hκ : InvariantKernel ld (κ t))
    {ψ : (ℕ → X) → ℝ≥0∞} (hψ : Measurable ψ) {H : ℕ → Hist X N} (hH : Good (RevivesDead L) (H t).1) :
    ∫⁻ ks, invEst κ (Function.update H (t + 1) (stepH mdl I L u ks (H t).1)) (t + 1) ψ
        ∂(Measure.pi fun _ => P) = invEst κ H t (pathQ P mdl u t ψ) := by
  obtain ⟨ν, hν⟩ := hld.density
  obtain ⟨B, hB⟩ : ∃ B : Fin N → X → ℝ≥0∞, B = fun j x' => invExp κ H t j fun p => ψ (splice t p x') := ⟨_, rfl⟩
  obtain ⟨Ψ, hΨ⟩ : ∃ Ψ : X × Fin N → ℝ≥0∞, Ψ = fun q => ∑ j, κ t (H t).1 q.1 q.2 j * B j q.1 := ⟨_, rfl⟩
  have hsec : ∀ p, Measurable fun x' => ψ (splice t p x') := fun p =>
    hψ.comp ((measurable_splice t).comp (measurable_const.prodMk measurable_id))
  have hBm : ∀ j, Measurable (B j) := fun j => by
    rw [hB]
    exact measurable_invExp_fixed t j (fun x' p => ψ (splice t p x')) hsec
  have hκm : ∀ i j, Measurable fun x' => κ t (H t).1 x' i j := fun i j =>
    (hκ.measurable i j).comp (measurable_const.prodMk measurable_id)
  have hΨi : ∀ i, Measurable fun x' => Ψ (x', i) := fun i => by
    rw [hΨ]
    exact Finset.measurable_sum _ fun j _ => (hκm i j).mul (hBm j)
  have hΨm : Measurable Ψ := measurable_from_prod_countable_left hΨi
  have h1 : ∀ ks, invEst κ (Function.update H (t + 1) (stepH mdl I L u ks (H t).1)) (t + 1) ψ =
      ENNReal.ofReal (coreStep mdl I L u ks (H t).1).2.2.lik * ∑ i,
        ENNReal.ofReal (nw (coreStep mdl I L u ks (H t).1).2.1 i) *
          Ψ ((coreStep mdl I L u ks (H t).1).1 i, I (ks 0) (H t).1.2.1 i) := by
    intro ks
    rw [invEst, Function.update_self]
    refine congrArg _ (Finset.sum_congr rfl fun i _ => ?_)
    refine congrArg _ ?_
    rw [invExp, Function.update_self, Function.update_of_ne (by omega), hΨ]
    refine Finset.sum_congr rfl fun j _ => ?_
    refine congrArg _ ?_
    rw [hB]
    exact invExp_congr t j _ _ (fun s hs => by rw [Function.update_of_ne (by omega)])
      (fun s _ hs => by rw [Function.update_of_ne (by omega)]) fun p _ => rfl
  simp only [h1]
  rw [lintegral_stepH hR hu hΨm hH]
  rcases hH.alive with hl | hl
  swap
  · simp [invEst, hl.2, Fl.lik]
  rw [invEst]
  congr 1
  have hdm : ∀ x, Measurable fun x' => ENNReal.ofReal (ld x x').lik := fun x => by
    have h2 : Measurable fun x' => ld x x' := hld.measurable.comp (measurable_const.prodMk measurable_id)
    exact ENNReal.measurable_ofReal.comp (Fl.measurable_lik.comp h2)
  have hQ : ∀ (f : X → ℝ≥0∞), Measurable f → ∀ x, fkQ P mdl u f x =
      ∫⁻ x', ENNReal.ofReal (ld x x').lik * f x' ∂ν := by
    intro f hf x
    rw [fkQ_eq hu hf, hν x, lintegral_withDensity_eq_lintegral_mul _ (hdm x) hf]
    rfl
  simp only [hQ _ (hΨi _)]
  -- the mixture
  have h2 : ∀ i, ENNReal.ofReal (nw (H t).1.2.1 i) * ∫⁻ x', ENNReal.ofReal (ld ((H t).1.1 i) x').lik * Ψ (x', i) ∂ν =
      ∫⁻ x', ENNReal.ofReal (nw (H t).1.2.1 i) * (ENNReal.ofReal (ld ((H t).1.1 i) x').lik * Ψ (x', i)) ∂ν := fun i =>
    (lintegral_const_mul _ ((hdm _).mul (hΨi i))).symm
  simp only [h2]
  have h2' : ∀ i, Measurable fun x' => ENNReal.ofReal (nw (H t).1.2.1 i) *
      (ENNReal.ofReal (ld ((H t).1.1 i) x').lik * Ψ (x', i)) := fun i => ((hdm _).mul (hΨi i)).const_mul _
  rw [← lintegral_finsetSum' _ fun i _ => (h2' i).aemeasurable]
  have h3 : ∀ x', ∑ i, ENNReal.ofReal (nw (H t).1.2.1 i) * (ENNReal.ofReal (ld ((H t).1.1 i) x').lik * Ψ (x', i)) =
      ∑ j, ENNReal.ofReal (nw (H t).1.2.1 j) * (ENNReal.ofReal (ld ((H t).1.1 j) x').lik * B j x') := by
    intro x'
    simp only [hΨ, Finset.mul_sum]
    rw [Finset.sum_comm]
    refine Finset.sum_congr rfl fun j _ => ?_
    rw [← mul_assoc, ← hκ.invariant _ hl x' j, Finset.sum_mul]
    exact Finset.sum_congr rfl fun i _ => by ring
  simp only [h3]
  have h4 : ∀ j, Measurable fun x' => ENNReal.ofReal (ld ((H t).1.1 j) x').lik * B j x' := fun j => (hdm _).mul (hBm j)
  rw [lintegral_finsetSum' _ fun j _ => ((h4 j).const_mul _).aemeasurable]
  refine Finset.sum_congr rfl fun j _ => ?_
  rw [lintegral_const_mul _ (h4 j)]
  congr 1
  -- pull the density out of the expectation over paths
  have h5 : ∀ x', ENNReal.ofReal (ld ((H t).1.1 j) x').lik * B j x' =
      invExp κ H t j fun p => ENNReal.ofReal (ld (p t) x').lik * ψ (splice t p x') := by
    intro x'
    rw [hB]
    simp only
    rw [← invExp_const_mul]
    refine invExp_congr t j _ _ (fun _ _ => rfl) (fun _ _ _ => rfl) fun p hp => ?_
    rw [hp t le_rfl]
  simp only [h5]
  rw [← invExp_lintegral ν t j (fun x' p => ENNReal.ofReal (ld (p t) x').lik * ψ (splice t p x'))
    fun p => (hdm _).mul (hsec p)]
  refine invExp_congr t j _ _ (fun _ _ => rfl) (fun _ _ _ => rfl) fun p _ => ?_
  rw [pathQ, hQ _ (hsec p)]

end step

/-! ### A run -/

/-- All cores and ancestors of a run that continues from `H` up to time `t`. -/
def histRun (rng : Prng K) (mdl : FKModel K X Inp) (I : K → (Fin N → Fl) → Fin N → Fin N)
    (L : K → (Fin N → Fl) → Fin N → Fl) :
    (us : List Inp) → ℕ → K → (ℕ → Hist X N) → (Fin us.length → K) → ℕ → Hist X N
  | [], _, _, H, _ => H
  | u :: us, t, k, H, keys => histRun rng mdl I L us (t + 1) (keys 0)
      (Function.update H (t + 1) (stepH mdl I L u (rng.nth k (N + 1)) (H t).1)) (Fin.tail keys)

theorem histRun_low {rng : Prng K} {mdl : FKModel K X Inp} {I : K → (Fin N → Fl) → Fin N → Fin N}
    {L : K → (Fin N → Fl) → Fin N → Fl} : ∀ (us : List Inp) (t : ℕ) (k : K) (H : ℕ → Hist X N)
    (keys : Fin us.length → K) (s : ℕ), s ≤ t → histRun rng mdl I L us t k H keys s = H s
  | [], _, _, _, _, _, _ => rfl
  | u :: us, t, k, H, keys, s, hs => by
    rw [histRun, histRun_low us (t + 1) _ _ _ s (by omega), Function.update_of_ne (by omega)]

/-- The core of a state and its ancestors. -/
def PFState.hist (s : PFState K X Inp N) : Hist X N := (s.core, s.ancestors)

theorem histRun_pfAt {rng : Prng K} {mdl : FKModel K X Inp} {I : K → (Fin N → Fl) → Fin N → Fin N}
    {L : K → (Fin N → Fl) → Fin N → Fl} : ∀ (us : List Inp) (t : ℕ) (st : PFState K X Inp N) (H : ℕ → Hist X N)
    (keys : Fin us.length → K) (s : ℕ), H t = st.hist → s ≤ us.length →
    histRun rng mdl I L us t st.key H keys (t + s) = (pfAt rng mdl I L us s st keys).hist
  | [], t, st, H, keys, s, hH, hs => by
    have : s = 0 := by simpa using hs
    subst this
    exact hH
  | u :: us, t, st, H, keys, 0, hH, _ => by
    rw [histRun_low _ _ _ _ _ _ (by omega), add_zero, hH]
    rfl
  | u :: us, t, st, H, keys, s + 1, hH, hs => by
    rw [histRun, pfAt, show t + (s + 1) = t + 1 + s by omega]
    refine histRun_pfAt us (t + 1) (stepTo rng mdl I L st u (keys 0)) _ _ s ?_ (by simpa using hs)
    rw [Function.update_self, hH]
    rfl

section run

variable [MeasurableSpace K] [MeasurableSpace X] {P : Measure K} {rng : Rng K}
  {mdl : FKModel K X Inp} {I : K → (Fin N → Fl) → Fin N → Fin N} {L : K → (Fin N → Fl) → Fin N → Fl}

theorem measurable_stepH (hR : UnbiasedWeights P I L) {u : Inp} (hu : mdl.Regular u) :
    Measurable fun q : (Fin (N + 1) → K) × Core X N => stepH mdl I L u q.1 q.2 := by
  have h1 : Measurable fun q : (Fin (N + 1) → K) × Core X N => (q.1 0, q.2.2.1) :=
    ((measurable_pi_apply 0).comp measurable_fst).prodMk (measurable_fst.comp (measurable_snd.comp measurable_snd))
  exact (measurable_coreStep hR hu).prodMk (hR.measurable_idx.comp h1)

theorem measurable_update {Ω Y : Type*} [MeasurableSpace Ω] [MeasurableSpace Y] (t : ℕ) {H : Ω → ℕ → Y} (hH : Measurable H)
    {g : Ω → Y} (hg : Measurable g) : Measurable fun ω => Function.update (H ω) t (g ω) := by
  refine measurable_pi_iff.mpr fun s => ?_
  by_cases hs : s = t
  · subst hs
    simp only [Function.update_self]
    exact hg
  · simp only [Function.update_of_ne hs]
    exact (measurable_pi_apply s).comp hH

variable [NeZero N] (h : IdealRng rng P)

include h

omit [NeZero N] in
theorem measurable_histRun (hR : UnbiasedWeights P I L) : ∀ (us : List Inp) (t : ℕ),
    (∀ u ∈ us, mdl.Regular u) →
    Measurable fun q : K × (ℕ → Hist X N) × (Fin us.length → K) =>
      histRun rng.toPrng mdl I L us t q.1 q.2.1 q.2.2
  | [], _, _ => measurable_fst.comp measurable_snd
  | u :: us, t, hu => by
    have hur := hu u (by simp)
    have ih := measurable_histRun hR us (t + 1) fun u' h' => hu u' (by simp [h'])
    have h0 : Measurable fun q : K × (ℕ → Hist X N) × (Fin (us.length + 1) → K) => q.2.1 :=
      measurable_fst.comp measurable_snd
    have h1 : Measurable fun q : K × (ℕ → Hist X N) × (Fin (us.length + 1) → K) =>
        stepH mdl I L u (rng.nth q.1 (N + 1)) (q.2.1 t).1 :=
      (measurable_stepH hR hur).comp (((measurable_nthAll h (N + 1)).comp measurable_fst).prodMk
        (measurable_fst.comp ((measurable_pi_apply t).comp h0)))
    have h2 : Measurable fun q : K × (ℕ → Hist X N) × (Fin (us.length + 1) → K) => q.2.2 :=
      measurable_snd.comp measurable_snd
    have h3 : Measurable fun q : K × (ℕ → Hist X N) × (Fin (us.length + 1) → K) => Fin.tail q.2.2 :=
      measurable_pi_iff.mpr fun i => (measurable_pi_apply i.succ).comp h2
    exact ih.comp (((measurable_pi_apply 0).comp h2).prodMk ((measurable_update (t + 1) h0 h1).prodMk h3))

/-- The expectation of the estimate at the final time, given the history. -/
theorem lintegral_histRun (hR : UnbiasedWeights P I L) {ld : ℕ → X → X → Fl}
    {κ : ℕ → Core X N → X → Fin N → Fin N → ℝ≥0∞} (hκ : ∀ t, InvariantKernel (ld t) (κ t))
    {ψ : (ℕ → X) → ℝ≥0∞} (hψ : Measurable ψ) :
    ∀ (us : List Inp) (t : ℕ) (H : ℕ → Hist X N), (∀ u ∈ us, mdl.Regular u) →
    (∀ s (hs : s < us.length), BackwardDensity (mdl.step P us[s]) (ld (t + s))) →
    (RevivesDead L ∨ ∀ u ∈ us, ∀ x x', (mdl.logPotential x x' u).IsFin) → Good (RevivesDead L) (H t).1 →
    ∫⁻ k, ∫⁻ keys, invEst κ (histRun rng.toPrng mdl I L us t k H keys) (t + us.length) ψ
        ∂(Measure.pi fun _ => P) ∂P = invEst κ H t (pathCont P mdl us t ψ)
  | [], t, H, _, _, _, _ => by
    have := h.prob
    simp [histRun, pathCont]
  | u :: us, t, H, hu, hld, hd, hH => by
    have := h.prob
    have hur := hu u (by simp)
    have hu' : ∀ u' ∈ us, mdl.Regular u' := fun u' h' => hu u' (by simp [h'])
    have hd' : RevivesDead L ∨ ∀ u ∈ us, ∀ x x', (mdl.logPotential x x' u).IsFin :=
      hd.imp_right fun h1 u' h' => h1 u' (by simp [h'])
    have hd0 : RevivesDead L ∨ ∀ x x', (mdl.logPotential x x' u).IsFin :=
      hd.imp_right fun h1 => h1 u (by simp)
    have hld0 : BackwardDensity (mdl.step P u) (ld t) := hld 0 (by simp)
    have hld' : ∀ s (hs : s < us.length), BackwardDensity (mdl.step P us[s]) (ld (t + 1 + s)) := fun s hs => by
      have := hld (s + 1) (by simpa using hs)
      rw [show t + 1 + s = t + (s + 1) by omega]
      exact this
    have hm : ∀ T, ∀ s < T, ∀ i j, Measurable fun q : Core X N × X => κ s q.1 q.2 i j :=
      fun _ s _ => (hκ s).measurable
    simp only [histRun, pathCont]
    have h1 : ∀ k, ∫⁻ keys : Fin (us.length + 1) → K, invEst κ (histRun rng.toPrng mdl I L us (t + 1) (keys 0)
          (Function.update H (t + 1) (stepH mdl I L u (rng.nth k (N + 1)) (H t).1)) (Fin.tail keys))
          (t + (u :: us).length) ψ ∂(Measure.pi fun _ => P) =
        invEst κ (Function.update H (t + 1) (stepH mdl I L u (rng.nth k (N + 1)) (H t).1)) (t + 1)
          (pathCont P mdl us (t + 1) ψ) := by
      intro k
      have hg : Good (RevivesDead L)
          (Function.update H (t + 1) (stepH mdl I L u (rng.nth k (N + 1)) (H t).1) (t + 1)).1 := by
        rw [Function.update_self]
        exact Good.step hH.logZ hur.isLog _ (hH.isLogits_L hR.isLogits _) hd0
      rw [← lintegral_histRun hR hκ hψ us (t + 1) _ hu' hld' hd' hg, lintegral_pi_cons P]
      · simp only [Fin.cons_zero, Fin.tail_cons, List.length_cons]
        rw [show t + (us.length + 1) = t + 1 + us.length by omega]
      · have h2 : Measurable fun keys : Fin (us.length + 1) → K => Fin.tail keys :=
          measurable_pi_iff.mpr fun i => measurable_pi_apply i.succ
        rw [List.length_cons, show t + (us.length + 1) = t + 1 + us.length by omega]
        exact (measurable_invEst (hm _) hψ).comp ((measurable_histRun h hR us (t + 1) hu').comp
          ((measurable_pi_apply 0).prodMk (measurable_const.prodMk h2)))
    have hc := measurable_pathCont (P := P) hψ us (t + 1) hu'
    have h3 : Measurable fun ks : Fin (N + 1) → K => invEst κ
        (Function.update H (t + 1) (stepH mdl I L u ks (H t).1)) (t + 1) (pathCont P mdl us (t + 1) ψ) :=
      (measurable_invEst (hm _) hc).comp (measurable_update (t + 1) measurable_const
        ((measurable_stepH hR hur).comp (measurable_id.prodMk measurable_const)))
    refine (lintegral_congr h1).trans ?_
    rw [(h.split (N + 1)).lintegral_comp h3, lintegral_invEst_step hR hur hld0 (hκ t) hc hH]

/-- The whole run. -/
theorem lintegral_invEst_run (hR : UnbiasedWeights P I L) (hind : IndepSplit rng.toPrng P) {u0 : Inp}
    (h0 : Measurable fun k => mdl.initSample k u0) {ld : ℕ → X → X → Fl}
    {κ : ℕ → Core X N → X → Fin N → Fin N → ℝ≥0∞} (hκ : ∀ t, InvariantKernel (ld t) (κ t))
    {ψ : (ℕ → X) → ℝ≥0∞} (hψ : Measurable ψ)
    (us : List Inp) (hu : ∀ u ∈ us, mdl.Regular u)
    (hld : ∀ s (hs : s < us.length), BackwardDensity (mdl.step P us[s]) (ld s))
    (hd : RevivesDead L ∨ ∀ u ∈ us, ∀ x x', (mdl.logPotential x x' u).IsFin) :
    ∫⁻ k, invEst κ (fun t => (pfRun rng.toPrng mdl I L u0 us k t).hist) us.length ψ ∂P =
      fkExp (mdl.init P u0) (us.map (mdl.step P)) ψ := by
  have := h.prob
  have hgood : ∀ a : Fin N → K, Good (RevivesDead L) (coreInit mdl u0 a) := fun a => good_coreInit u0 a
  have hm : ∀ T, ∀ s < T, ∀ i j, Measurable fun q : Core X N × X => κ s q.1 q.2 i j :=
    fun _ s _ => (hκ s).measurable
  obtain ⟨H0, hH0⟩ : ∃ H0 : (Fin N → K) → ℕ → Hist X N, H0 = fun a _ => (coreInit mdl u0 a, id) := ⟨_, rfl⟩
  have hH0m : Measurable H0 := by
    rw [hH0]
    exact measurable_pi_iff.mpr fun _ => (measurable_coreInit h0).prodMk measurable_const
  -- the run as a function of its keys
  have h1 : ∀ k, invEst κ (fun t => (pfRun rng.toPrng mdl I L u0 us k t).hist) us.length ψ =
      invEst κ (histRun rng.toPrng mdl I L us 0 (rng.nth k (us.length + 1) 0)
        (H0 (rng.nth (rng.nth k (us.length + 1) 0) N))
        (Fin.tail (rng.nth k (us.length + 1)))) us.length ψ := by
    intro k
    have h2 : ∀ t ≤ us.length, histRun rng.toPrng mdl I L us 0 (rng.nth k (us.length + 1) 0)
        (H0 (rng.nth (rng.nth k (us.length + 1) 0) N))
        (Fin.tail (rng.nth k (us.length + 1))) t = (pfRun rng.toPrng mdl I L u0 us k t).hist := by
      intro t ht
      have h3 := histRun_pfAt (rng := rng.toPrng) (mdl := mdl) (I := I) (L := L) us 0
        (pfInit rng.toPrng mdl N u0 (rng.nth k (us.length + 1) 0))
        (H0 (rng.nth (rng.nth k (us.length + 1) 0) N))
        (Fin.tail (rng.nth k (us.length + 1))) t (by rw [hH0]; rfl) ht
      rw [Nat.zero_add] at h3
      exact h3
    rw [invEst, invEst, h2 _ le_rfl]
    congr 1
    refine Finset.sum_congr rfl fun i _ => ?_
    congr 1
    exact invExp_congr _ i _ _ (fun s hs => by rw [h2 s hs]) (fun s _ hs => by rw [h2 s hs]) fun p _ => rfl
  simp only [h1]
  have h2 : Measurable fun keys : Fin (us.length + 1) → K => Fin.tail keys :=
    measurable_pi_iff.mpr fun i => measurable_pi_apply i.succ
  have h3 : Measurable fun keys : Fin (us.length + 1) → K => H0 (rng.nth (keys 0) N) :=
    hH0m.comp ((measurable_nthAll h N).comp (measurable_pi_apply 0))
  have h4 : Measurable fun keys : Fin (us.length + 1) → K =>
      invEst κ (histRun rng.toPrng mdl I L us 0 (keys 0) (H0 (rng.nth (keys 0) N))
        (Fin.tail keys)) us.length ψ :=
    (measurable_invEst (hm _) hψ).comp ((measurable_histRun h hR us 0 hu).comp
      ((measurable_pi_apply 0).prodMk (h3.prodMk h2)))
  rw [(h.split (us.length + 1)).lintegral_comp h4, lintegral_pi_cons P h4]
  simp only [Fin.cons_zero, Fin.tail_cons]
  -- the expectation over the initial particles
  have hinit : ∀ {f : (ℕ → X) → ℝ≥0∞}, Measurable f →
      ∫⁻ a, invEst κ (H0 a) 0 f ∂(Measure.pi fun _ => P) = ∫⁻ x, f (fun _ => x) ∂mdl.init P u0 := by
    intro f hf
    have h5 : Measurable fun x : X => f fun _ => x := hf.comp (measurable_pi_iff.mpr fun _ => measurable_id)
    rw [hH0]
    exact lintegral_coreInit (N := N) h0 h5
  have hfinal : ∫⁻ x, pathCont P mdl us 0 ψ (fun _ => x) ∂mdl.init P u0 = fkExp (mdl.init P u0) (us.map (mdl.step P)) ψ := by
    rw [fkExp]
    refine lintegral_congr fun x => ?_
    rw [pathCont_eq us 0 ψ (fun _ => x) hψ hu fun _ _ => rfl]
    refine fkPathExp_congr _ _ _ _ fun q hq => ?_
    congr 1
    funext s
    split_ifs with hs
    · rw [show s = 0 by omega, hq]
    · rfl
  rw [← hfinal]
  match us with
  | [] =>
    simp only [histRun, pathCont, List.length_nil, lintegral_const, measure_univ, mul_one]
    rw [← hinit hψ]
    exact (h.split N).lintegral_comp (f := fun a => invEst κ (H0 a) 0 ψ) ((measurable_invEst (hm _) hψ).comp hH0m)
  | u :: us =>
    have hur := hu u (by simp)
    have hu' : ∀ u' ∈ us, mdl.Regular u' := fun u' h' => hu u' (by simp [h'])
    have hd' : RevivesDead L ∨ ∀ u ∈ us, ∀ x x', (mdl.logPotential x x' u).IsFin :=
      hd.imp_right fun h1 u' h' => h1 u' (by simp [h'])
    have hd0 : RevivesDead L ∨ ∀ x x', (mdl.logPotential x x' u).IsFin :=
      hd.imp_right fun h1 => h1 u (by simp)
    have hld0 : BackwardDensity (mdl.step P u) (ld 0) := hld 0 (by simp)
    have hld' : ∀ s (hs : s < us.length), BackwardDensity (mdl.step P us[s]) (ld (1 + s)) := fun s hs => by
      have := hld (s + 1) (by simpa using hs)
      rw [show 1 + s = s + 1 by omega]
      exact this
    have hc := measurable_pathCont (P := P) hψ us 1 hu'
    have hH0' : ∀ a, (H0 a 0).1 = coreInit mdl u0 a := fun a => by rw [hH0]
    have h5 : ∀ k, ∫⁻ keys : Fin (us.length + 1) → K, invEst κ (histRun rng.toPrng mdl I L (u :: us) 0 k
          (H0 (rng.nth k N)) keys) (u :: us).length ψ ∂(Measure.pi fun _ => P) =
        invEst κ (Function.update (H0 (rng.nth k N)) 1
          (stepH mdl I L u (rng.nth k (N + 1)) (H0 (rng.nth k N) 0).1)) 1 (pathCont P mdl us 1 ψ) := by
      intro k
      have hg : Good (RevivesDead L) (Function.update (H0 (rng.nth k N)) 1
          (stepH mdl I L u (rng.nth k (N + 1)) (H0 (rng.nth k N) 0).1) 1).1 := by
        rw [Function.update_self, hH0']
        exact Good.step (hgood _).logZ hur.isLog _ ((hgood _).isLogits_L hR.isLogits _) hd0
      rw [← lintegral_histRun h hR hκ hψ us 1 _ hu' hld' hd' hg, lintegral_pi_cons P]
      · simp only [histRun, Fin.cons_zero, Fin.tail_cons, List.length_cons, zero_add]
        rw [add_comm us.length 1]
      · have h2 : Measurable fun keys : Fin (us.length + 1) → K => Fin.tail keys :=
          measurable_pi_iff.mpr fun i => measurable_pi_apply i.succ
        have e : (u :: us).length = 1 + us.length := by rw [List.length_cons, add_comm]
        simp only [histRun, e]
        exact (measurable_invEst (hm _) hψ).comp ((measurable_histRun h hR us 1 hu').comp
          ((measurable_pi_apply 0).prodMk (measurable_const.prodMk h2)))
    refine (lintegral_congr h5).trans ?_
    have h6 : Measurable fun q : (Fin N → K) × (Fin (N + 1) → K) =>
        invEst κ (Function.update (H0 q.1) 1 (stepH mdl I L u q.2 (H0 q.1 0).1)) 1 (pathCont P mdl us 1 ψ) := by
      have hH1 : Measurable fun q : (Fin N → K) × (Fin (N + 1) → K) => H0 q.1 := hH0m.comp measurable_fst
      refine (measurable_invEst (hm _) hc).comp (measurable_update 1 hH1 ((measurable_stepH hR hur).comp
        (measurable_snd.prodMk (measurable_fst.comp ((measurable_pi_apply 0).comp hH1)))))
    refine ((hind N (N + 1) (by omega)).lintegral_comp h6).trans ?_
    rw [lintegral_prod _ h6.aemeasurable]
    have h7 : ∀ a : Fin N → K, ∫⁻ ks, invEst κ (Function.update (H0 a) 1
          (stepH mdl I L u ks (H0 a 0).1)) 1 (pathCont P mdl us 1 ψ) ∂(Measure.pi fun _ => P) =
        invEst κ (H0 a) 0 (pathCont P mdl (u :: us) 0 ψ) := fun a =>
      lintegral_invEst_step hR hur hld0 (hκ 0) hc (by rw [hH0']; exact hgood a)
    simp only [h7]
    exact hinit (measurable_pathCont hψ (u :: us) 0 hu)

end run

end

end Cuthbert.SMC
