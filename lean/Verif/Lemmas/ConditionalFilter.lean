import Verif.Spec.ParticleGibbs
import Verif.Lemmas.InvariantBackward
import Verif.Lemmas.SMCConcentrate

/-!
# Lemmas about conditional particle filters
-/

namespace Cuthbert.SMC
open MeasureTheory Set Resampling Spec
open scoped ENNReal

noncomputable section

variable {K X Inp : Type} {N n : ℕ}

/-! ### Replacing one of several independent keys -/

/-- Drawing one of several independent keys again. -/
theorem measurePreserving_update [MeasurableSpace K] (P : Measure K) [IsProbabilityMeasure P] (m : Fin n) :
    MeasurePreserving (fun q : (Fin n → K) × K => Function.update q.1 m q.2) ((Measure.pi fun _ => P).prod P)
      (Measure.pi fun _ => P) := by
  have hm : Measurable fun q : (Fin n → K) × K => Function.update q.1 m q.2 := by
    refine measurable_pi_iff.mpr fun s => ?_
    by_cases hs : s = m
    · subst hs
      simp only [Function.update_self]
      exact measurable_snd
    · simp only [Function.update_of_ne hs]
      exact (measurable_pi_apply s).comp measurable_fst
  refine ⟨hm, (Measure.pi_eq fun s hs => ?_).symm⟩
  rw [Measure.map_apply hm (MeasurableSet.univ_pi hs)]
  have h1 : (fun q : (Fin n → K) × K => Function.update q.1 m q.2) ⁻¹' univ.pi s =
      (univ.pi (Function.update s m univ)) ×ˢ s m := by
    ext ⟨y, k⟩
    simp only [mem_preimage, mem_univ_pi, mem_prod]
    constructor
    · intro h
      refine ⟨fun i => ?_, by simpa using h m⟩
      by_cases hi : i = m
      · subst hi
        simp
      · simpa [hi] using h i
    · rintro ⟨h1, h2⟩ i
      by_cases hi : i = m
      · subst hi
        simpa using h2
      · simpa [hi] using h1 i
  rw [h1, Measure.prod_prod, Measure.pi_pi, ← Finset.prod_erase_mul _ _ (Finset.mem_univ m),
    ← Finset.prod_erase_mul (a := m) _ (fun i => P (s i)) (Finset.mem_univ m)]
  simp only [Function.update_self, measure_univ, mul_one]
  congr 1
  exact Finset.prod_congr rfl fun i hi => by rw [Function.update_of_ne (Finset.ne_of_mem_erase hi)]

/-- A function of one key and of the others. -/
theorem lintegral_pi_split [MeasurableSpace K] (P : Measure K) [IsProbabilityMeasure P] (m : Fin n)
    {G : K → (Fin n → K) → ℝ≥0∞} (hG : Measurable fun q : (Fin n → K) × K => G q.2 q.1)
    (hG' : ∀ k y k', G k (Function.update y m k') = G k y) :
    ∫⁻ y, G (y m) y ∂(Measure.pi fun _ => P) = ∫⁻ k, ∫⁻ y, G k y ∂(Measure.pi fun _ => P) ∂P := by
  have h0 : Measurable fun y : Fin n → K => (y, y m) := measurable_id.prodMk (measurable_pi_apply m)
  have h1 : Measurable fun y : Fin n → K => G (y m) y := hG.comp h0
  have h2 : Measurable fun q : (Fin n → K) × K => G (Function.update q.1 m q.2 m) (Function.update q.1 m q.2) :=
    h1.comp (measurePreserving_update P m).measurable
  rw [← (measurePreserving_update P m).lintegral_comp h1, lintegral_prod _ h2.aemeasurable]
  simp only [Function.update_self, hG']
  exact lintegral_lintegral_swap hG.aemeasurable

/-- A function of an index vector that depends on the first key, and of the other keys. -/
theorem lintegral_index [MeasurableSpace K] (P : Measure K) [IsProbabilityMeasure P] {J : K → Fin N → Fin N}
    (hJ : Measurable J) {G : (Fin N → Fin N) → (Fin n → K) → ℝ≥0∞} (hG : ∀ a, Measurable (G a)) :
    ∫⁻ ks : Fin (n + 1) → K, G (J (ks 0)) (Fin.tail ks) ∂(Measure.pi fun _ => P) =
      ∑ a, P {k | J k = a} * ∫⁻ y, G a y ∂(Measure.pi fun _ => P) := by
  have h1 : Measurable fun q : (Fin N → Fin N) × (Fin n → K) => G q.1 q.2 :=
    measurable_from_prod_countable_right hG
  have h2 : Measurable fun ks : Fin (n + 1) → K => (J (ks 0), Fin.tail ks) :=
    (hJ.comp (measurable_pi_apply 0)).prodMk (measurable_pi_iff.mpr fun i => measurable_pi_apply i.succ)
  have h0 : Measurable fun ks : Fin (n + 1) → K => G (J (ks 0)) (Fin.tail ks) := h1.comp h2
  rw [lintegral_pi_cons P h0]
  simp only [Fin.cons_zero, Fin.tail_cons]
  have h3 : ∀ c, ∫⁻ y, G (J c) y ∂(Measure.pi fun _ => P) =
      ∑ a, {k | J k = a}.indicator 1 c * ∫⁻ y, G a y ∂(Measure.pi fun _ => P) := by
    intro c
    rw [Finset.sum_eq_single (J c)]
    · simp
    · intro a _ ha
      rw [indicator_of_notMem (by simpa using ha.symm), zero_mul]
    · simp
  have h4 : ∀ a, MeasurableSet {k | J k = a} := fun a => hJ (measurableSet_singleton a)
  simp only [h3]
  have h5 : ∀ a, Measurable ({k | J k = a}.indicator (1 : K → ℝ≥0∞)) := fun a => measurable_one.indicator (h4 a)
  rw [lintegral_finsetSum' _ fun a _ => ((h5 a).mul_const _).aemeasurable]
  refine Finset.sum_congr rfl fun a _ => ?_
  rw [lintegral_mul_const _ (h5 a), lintegral_indicator_one (h4 a)]

/-! ### One step -/

/-- The state after a step with the ancestors `a` and the new particles `next`. -/
def histFrom (mdl : FKModel K X Inp) (u : Inp) (a : Fin N → Fin N) (next : Fin N → X) (c : Core X N) : Hist X N :=
  ((next, fun m => mdl.logPotential (c.1 (a m)) (next m) u + 0,
    Fl.logsumexp (fun m => mdl.logPotential (c.1 (a m)) (next m) u + 0) - Fl.logsumexp (fun _ : Fin N => 0) + c.2.2), a)

/-- One step of the conditional filter. -/
def cstepH (mdl : FKModel K X Inp) (C : K → (Fin N → Fl) → Fin N → Fin N → Fin N → Fin N) (u : Inp)
    (ks : Fin (N + 1) → K) (x' : X) (b' b : Fin N) (c : Core X N) : Hist X N :=
  histFrom mdl u (C (ks 0) c.2.1 b' b)
    (Function.update (fun m => mdl.propagate (ks m.succ) (c.1 (C (ks 0) c.2.1 b' b m)) u) b' x') c

/-- The unnormalised weight of a particle. -/
def slotWeight (c : Core X N) (b : Fin N) : ℝ≥0∞ := ENNReal.ofReal c.2.2.lik * ENNReal.ofReal (nw c.2.1 b)

/-- No particle or evidence is lost. -/
structure Alive (c : Core X N) : Prop where
  weights : IsLogits c.2.1
  logZ : c.2.2.IsFin

section step

variable {mdl : FKModel K X Inp} {u : Inp} {I : K → (Fin N → Fl) → Fin N → Fin N}
  {C : K → (Fin N → Fl) → Fin N → Fin N → Fin N → Fin N}

theorem stepH_eq (ks : Fin (N + 1) → K) (c : Core X N) : stepH mdl I zeroLogits u ks c =
    histFrom mdl u (I (ks 0) c.2.1) (fun m => mdl.propagate (ks m.succ) (c.1 (I (ks 0) c.2.1 m)) u) c := rfl

theorem Alive.histFrom [NeZero N] {c : Core X N} (hc : Alive c) (hu : ∀ x x', (mdl.logPotential x x' u).IsFin)
    (a : Fin N → Fin N) (next : Fin N → X) : Alive (histFrom mdl u a next c).1 := by
  have h1 : ∀ m, (mdl.logPotential (c.1 (a m)) (next m) u + 0).IsFin := fun m => (hu _ _).add trivial
  have h2 : ∀ m, (mdl.logPotential (c.1 (a m)) (next m) u + 0).IsLog := fun m => (h1 m).isLog
  have h3 : IsLogits fun m => mdl.logPotential (c.1 (a m)) (next m) u + 0 := ⟨h2, 0, h1 0⟩
  refine ⟨h3, ?_⟩
  change (Fl.logsumexp (fun m => mdl.logPotential (c.1 (a m)) (next m) u + 0) -
    Fl.logsumexp (fun _ : Fin N => 0) + c.2.2).IsFin
  rw [logsumexp_eq (isLogits_zero (N := N)), logsumexp_eq h3]
  exact Fl.IsFin.add trivial hc.logZ

theorem slotWeight_histFrom [NeZero N] {c : Core X N} (hc : Alive c) (hu : ∀ x x', (mdl.logPotential x x' u).IsLog)
    (a : Fin N → Fin N) (next : Fin N → X) (b' : Fin N) : slotWeight (histFrom mdl u a next c).1 b' =
      ENNReal.ofReal c.2.2.lik * ((N : ℝ≥0∞)⁻¹ * ENNReal.ofReal (mdl.logPotential (c.1 (a b')) (next b') u).lik) := by
  have h1 := step_weight (N := N) (fun m => hu (c.1 (a m)) (next m)) (isLogits_zero (N := N)) hc.logZ.isLog b'
  rw [slotWeight, ← ENNReal.ofReal_mul (Fl.lik_nonneg _)]
  refine (congrArg ENNReal.ofReal h1).trans ?_
  rw [ENNReal.ofReal_mul (Fl.lik_nonneg _), ENNReal.ofReal_mul (nw_nonneg _ _), ofReal_nw_zero]

theorem measurable_histFrom [MeasurableSpace X] [MeasurableSpace K] (hu : mdl.Regular u) {Ω : Type*} [MeasurableSpace Ω]
    {a : Ω → Fin N → Fin N} (ha : Measurable a) {next : Ω → Fin N → X} (hx : Measurable next) {c : Ω → Core X N}
    (hc : Measurable c) : Measurable fun ω => histFrom mdl u (a ω) (next ω) (c ω) := by
  have h1 : Measurable fun ω => (c ω).1 := measurable_fst.comp hc
  have hanc : ∀ m, Measurable fun ω => (c ω).1 (a ω m) := fun m =>
    measurable_pick_entry h1 ((measurable_pi_apply m).comp ha)
  have hnext : ∀ m, Measurable fun ω => next ω m := fun m => (measurable_pi_apply m).comp hx
  have hlw : Measurable fun (ω : Ω) (m : Fin N) => mdl.logPotential ((c ω).1 (a ω m)) (next ω m) u + 0 := by
    refine measurable_pi_iff.mpr fun m => ?_
    have h2 : Measurable fun ω => mdl.logPotential ((c ω).1 (a ω m)) (next ω m) u :=
      hu.logPotential.comp ((hanc m).prodMk (hnext m))
    exact Fl.measurable_add.comp (h2.prodMk measurable_const)
  have hz : Measurable fun ω => (c ω).2.2 := measurable_snd.comp (measurable_snd.comp hc)
  have hl0 : Measurable fun _ : Ω => Fl.logsumexp (fun _ : Fin N => 0) := measurable_const
  have hZ := Fl.measurable_add.comp (((Fl.measurable_logsumexp.comp hlw).fl_sub hl0).prodMk hz)
  exact (hx.prodMk (hlw.prodMk hZ)).prodMk ha

variable [MeasurableSpace K] [MeasurableSpace X] {P : Measure K}

theorem measurable_cstepH (hu : mdl.Regular u) (hC : ConditionalLaw P C) (b' b : Fin N) {Ω : Type*} [MeasurableSpace Ω]
    {ks : Ω → Fin (N + 1) → K} (hk : Measurable ks) {x' : Ω → X} (hx : Measurable x') {c : Ω → Core X N}
    (hc : Measurable c) : Measurable fun ω => cstepH mdl C u (ks ω) (x' ω) b' b (c ω) := by
  have hk0 : Measurable fun ω => (ks ω 0, (c ω).2.1) :=
    ((measurable_pi_apply 0).comp hk).prodMk (measurable_fst.comp (measurable_snd.comp hc))
  have ha : Measurable fun ω => C (ks ω 0) (c ω).2.1 b' b := (hC.measurable b' b).comp hk0
  have h1 : Measurable fun ω => (c ω).1 := measurable_fst.comp hc
  have hnext : Measurable fun ω => (fun m : Fin N => mdl.propagate (ks ω m.succ) ((c ω).1 (C (ks ω 0) (c ω).2.1 b' b m)) u) := by
    refine measurable_pi_iff.mpr fun m => ?_
    have h2 : Measurable fun ω => (ks ω m.succ, (c ω).1 (C (ks ω 0) (c ω).2.1 b' b m)) :=
      ((measurable_pi_apply m.succ).comp hk).prodMk (measurable_pick_entry h1 ((measurable_pi_apply m).comp ha))
    exact hu.propagate.comp h2
  refine measurable_histFrom hu ha (next := fun ω => Function.update (fun m : Fin N =>
    mdl.propagate (ks ω m.succ) ((c ω).1 (C (ks ω 0) (c ω).2.1 b' b m)) u) b' (x' ω)) ?_ hc
  refine measurable_pi_iff.mpr fun m => ?_
  by_cases hm : m = b'
  · subst hm
    simp only [Function.update_self]
    exact hx
  · simp only [Function.update_of_ne hm]
    exact (measurable_pi_apply m).comp hnext

/-- The indices `I` have the unconditional law that belongs to the conditional indices `C`. -/
def MarginalOf (P : Measure K) (C : K → (Fin N → Fl) → Fin N → Fin N → Fin N → Fin N)
    (I : K → (Fin N → Fl) → Fin N → Fin N) : Prop :=
  ∀ l, IsLogits l → ∀ b' b a, ENNReal.ofReal (nw l b) * P {k | C k l b' b = a} =
    if a b' = b then P {k | I k l = a} else 0

/-- One step of the filter, seen from the particle in slot `b'`: its parent is in some slot `b`, it has moved from there
like the reference path, and the other particles are as in a step of the conditional filter. -/
theorem lintegral_pivot [IsProbabilityMeasure P] [NeZero N] (hC : ConditionalLaw P C) (hI : MarginalOf P C I)
    (hIm : Measurable fun q : K × (Fin N → Fl) => I q.1 q.2) (hu : mdl.Regular u) {Ψ : Hist X N → ℝ≥0∞}
    (hΨ : Measurable Ψ) {c : Core X N} (hc : Alive c) (b' : Fin N) :
    ∫⁻ ks, slotWeight (stepH mdl I zeroLogits u ks c).1 b' * Ψ (stepH mdl I zeroLogits u ks c) ∂(Measure.pi fun _ => P) =
      (N : ℝ≥0∞)⁻¹ * ∑ b, slotWeight c b *
        fkQ P mdl u (fun x' => ∫⁻ ks, Ψ (cstepH mdl C u ks x' b' b c) ∂(Measure.pi fun _ => P)) (c.1 b) := by
  classical
  -- the new particles for given ancestors
  obtain ⟨nx, hnx⟩ : ∃ nx : (Fin N → Fin N) → (Fin N → K) → Fin N → X,
    nx = fun a y m => mdl.propagate (y m) (c.1 (a m)) u := ⟨_, rfl⟩
  have hnxm : ∀ a, Measurable (nx a) := fun a => by
    rw [hnx]
    refine measurable_pi_iff.mpr fun m => ?_
    have h1 : Measurable fun y : Fin N → K => (y m, c.1 (a m)) := (measurable_pi_apply m).prodMk measurable_const
    exact hu.propagate.comp h1
  have hprop : ∀ x, Measurable fun k => mdl.propagate k x u := fun x =>
    hu.propagate.comp (measurable_id.prodMk measurable_const)
  have hpot : ∀ x, Measurable fun x' => ENNReal.ofReal (mdl.logPotential x x' u).lik := fun x => by
    have h1 : Measurable fun x' => mdl.logPotential x x' u := hu.logPotential.comp (measurable_const.prodMk measurable_id)
    exact ENNReal.measurable_ofReal.comp (Fl.measurable_lik.comp h1)
  -- the integrand for given ancestors
  obtain ⟨A, hA⟩ : ∃ A : (Fin N → Fin N) → Fin N → K → (Fin N → K) → ℝ≥0∞, A = fun a b k y =>
    ENNReal.ofReal (mdl.logPotential (c.1 b) (mdl.propagate k (c.1 b) u) u).lik *
      Ψ (histFrom mdl u a (Function.update (nx a y) b' (mdl.propagate k (c.1 b) u)) c) := ⟨_, rfl⟩
  have hupd : ∀ a b, Measurable fun q : (Fin N → K) × K => Function.update (nx a q.1) b' (mdl.propagate q.2 (c.1 b) u) := by
    intro a b
    refine measurable_pi_iff.mpr fun m => ?_
    by_cases hm : m = b'
    · subst hm
      simp only [Function.update_self]
      exact (hprop _).comp measurable_snd
    · simp only [Function.update_of_ne hm]
      exact (measurable_pi_apply m).comp ((hnxm a).comp measurable_fst)
  have hAm : ∀ a b, Measurable fun q : (Fin N → K) × K => A a b q.2 q.1 := fun a b => by
    rw [hA]
    have h1 : Measurable fun q : (Fin N → K) × K =>
        histFrom mdl u a (Function.update (nx a q.1) b' (mdl.propagate q.2 (c.1 b) u)) c :=
      measurable_histFrom hu measurable_const (hupd a b) measurable_const
    exact (((hpot _).comp (hprop _)).comp measurable_snd).mul (hΨ.comp h1)
  have hAu : ∀ a b k y k', A a b k (Function.update y b' k') = A a b k y := by
    intro a b k y k'
    rw [hA]
    beta_reduce
    have h1 : Function.update (nx a (Function.update y b' k')) b' (mdl.propagate k (c.1 b) u) =
        Function.update (nx a y) b' (mdl.propagate k (c.1 b) u) := by
      funext m
      by_cases hm : m = b'
      · subst hm
        simp only [Function.update_self]
      · simp only [Function.update_of_ne hm, hnx]
    rw [h1]
  obtain ⟨E, hE⟩ : ∃ E : (Fin N → Fin N) → Fin N → ℝ≥0∞, E = fun a b =>
    ∫⁻ k, ∫⁻ y, A a b k y ∂(Measure.pi fun _ => P) ∂P := ⟨_, rfl⟩
  -- the left-hand side
  have hl : ∀ ks, slotWeight (stepH mdl I zeroLogits u ks c).1 b' * Ψ (stepH mdl I zeroLogits u ks c) =
      ENNReal.ofReal c.2.2.lik * (N : ℝ≥0∞)⁻¹ *
        (fun a y => A a (a b') (y b') y) (I (ks 0) c.2.1) (Fin.tail ks) := by
    intro ks
    rw [stepH_eq, slotWeight_histFrom hc hu.isLog, hA]
    beta_reduce
    have h1 : Function.update (nx (I (ks 0) c.2.1) (Fin.tail ks)) b'
        (mdl.propagate (Fin.tail ks b') (c.1 (I (ks 0) c.2.1 b')) u) =
        fun m => mdl.propagate (ks m.succ) (c.1 (I (ks 0) c.2.1 m)) u := by
      rw [hnx]
      exact Function.update_eq_self b' (fun m => mdl.propagate (Fin.tail ks m) (c.1 (I (ks 0) c.2.1 m)) u)
    rw [h1]
    rw [mul_assoc, mul_assoc, mul_assoc]
    rfl
  have hIc : Measurable fun k => I k c.2.1 := hIm.comp (measurable_id.prodMk measurable_const)
  have hAd : ∀ a, Measurable fun y : Fin N → K => A a (a b') (y b') y := fun a => by
    have h1 : Measurable fun y : Fin N → K => (y, y b') := measurable_id.prodMk (measurable_pi_apply b')
    exact (hAm a (a b')).comp h1
  have hlm : Measurable fun ks : Fin (N + 1) → K =>
      (fun a y => A a (a b') (y b') y) (I (ks 0) c.2.1) (Fin.tail ks) := by
    have h1 : Measurable fun q : (Fin N → Fin N) × (Fin N → K) => A q.1 (q.1 b') (q.2 b') q.2 :=
      measurable_from_prod_countable_right hAd
    have h2 : Measurable fun ks : Fin (N + 1) → K => (I (ks 0) c.2.1, Fin.tail ks) :=
      (hIc.comp (measurable_pi_apply 0)).prodMk (measurable_pi_iff.mpr fun i => measurable_pi_apply i.succ)
    exact h1.comp h2
  rw [lintegral_congr hl, lintegral_const_mul _ hlm, lintegral_index P hIc hAd]
  have h1 : ∀ a, ∫⁻ y, A a (a b') (y b') y ∂(Measure.pi fun _ => P) = E a (a b') := fun a => by
    rw [hE]
    exact lintegral_pi_split P b' (hAm a (a b')) (hAu a (a b'))
  simp only [h1]
  -- the right-hand side
  have h2 : ∀ b, fkQ P mdl u (fun x' => ∫⁻ ks, Ψ (cstepH mdl C u ks x' b' b c) ∂(Measure.pi fun _ => P)) (c.1 b) =
      ∑ a, P {k | C k c.2.1 b' b = a} * E a b := by
    intro b
    have hCc : Measurable fun k => C k c.2.1 b' b :=
      (hC.measurable b' b).comp (measurable_id.prodMk measurable_const)
    have h3 : ∀ k, ENNReal.ofReal (mdl.logPotential (c.1 b) (mdl.propagate k (c.1 b) u) u).lik *
        ∫⁻ ks, Ψ (cstepH mdl C u ks (mdl.propagate k (c.1 b) u) b' b c) ∂(Measure.pi fun _ => P) =
        ∑ a, P {k | C k c.2.1 b' b = a} * ∫⁻ y, A a b k y ∂(Measure.pi fun _ => P) := by
      intro k
      have h4 : ∀ a, Measurable fun y : Fin N → K =>
          Ψ (histFrom mdl u a (Function.update (nx a y) b' (mdl.propagate k (c.1 b) u)) c) := fun a => by
        have h5 : Measurable fun y : Fin N → K => (y, k) := measurable_id.prodMk measurable_const
        have h6 : Measurable fun y : Fin N → K => Function.update (nx a y) b' (mdl.propagate k (c.1 b) u) :=
          (hupd a b).comp h5
        exact hΨ.comp (measurable_histFrom hu measurable_const h6 measurable_const)
      have h5 := lintegral_index P hCc (G := fun a y =>
        Ψ (histFrom mdl u a (Function.update (nx a y) b' (mdl.propagate k (c.1 b) u)) c)) h4
      have h6 : ∀ ks : Fin (N + 1) → K, Ψ (cstepH mdl C u ks (mdl.propagate k (c.1 b) u) b' b c) =
          Ψ (histFrom mdl u (C (ks 0) c.2.1 b' b) (Function.update (nx (C (ks 0) c.2.1 b' b) (Fin.tail ks)) b'
            (mdl.propagate k (c.1 b) u)) c) := fun ks => by rw [hnx]; rfl
      rw [lintegral_congr h6, h5, Finset.mul_sum]
      refine Finset.sum_congr rfl fun a _ => ?_
      rw [mul_left_comm, hA]
      congr 1
      exact (lintegral_const_mul _ (h4 a)).symm
    rw [fkQ, lintegral_congr h3]
    have h4 : ∀ a, Measurable fun k => ∫⁻ y, A a b k y ∂(Measure.pi fun _ => P) := fun a => by
      have h5 : Measurable fun q : K × (Fin N → K) => A a b q.1 q.2 := (hAm a b).comp measurable_swap
      exact h5.lintegral_prod_right'
    rw [lintegral_finsetSum' _ fun a _ => ((h4 a).const_mul _).aemeasurable]
    refine Finset.sum_congr rfl fun a _ => ?_
    rw [lintegral_const_mul _ (h4 a), hE]
  simp only [h2, slotWeight]
  have h3 : ∀ b, ENNReal.ofReal c.2.2.lik * ENNReal.ofReal (nw c.2.1 b) * ∑ a, P {k | C k c.2.1 b' b = a} * E a b =
      ENNReal.ofReal c.2.2.lik * ∑ a, (if a b' = b then P {k | I k c.2.1 = a} * E a b else 0) := by
    intro b
    rw [mul_assoc, Finset.mul_sum]
    congr 1
    refine Finset.sum_congr rfl fun a _ => ?_
    rw [← mul_assoc, hI _ hc.weights]
    split_ifs <;> simp
  simp only [h3]
  rw [← Finset.mul_sum, Finset.sum_comm]
  simp only [Finset.sum_ite_eq, Finset.mem_univ, if_true]
  rw [← mul_assoc, mul_comm (N : ℝ≥0∞)⁻¹]

end step

/-! ### Continuations of paths -/

section cont

variable [MeasurableSpace K] [MeasurableSpace X] {P : Measure K} {mdl : FKModel K X Inp}

omit [MeasurableSpace X] in
theorem pathCont_congr {r : ℕ} : ∀ (us : List Inp) (t : ℕ) (ψ ψ' : (ℕ → X) → ℝ≥0∞) (p p' : ℕ → X), r ≤ t →
    (∀ s, r ≤ s → p s = p' s) →
    (∀ q q' : ℕ → X, (∀ s, r ≤ s → q s = q' s) → (∀ s, r ≤ s → s ≤ t → q s = p s) → ψ q = ψ' q') →
    pathCont P mdl us t ψ p = pathCont P mdl us t ψ' p'
  | [], t, ψ, ψ', p, p', _, hp, hψ => hψ p p' hp fun _ _ _ => rfl
  | u :: us, t, ψ, ψ', p, p', hr, hp, hψ => by
    rw [pathCont, pathCont, pathQ, pathQ, ← hp t hr]
    refine lintegral_congr fun k => ?_
    congr 1
    refine pathCont_congr us (t + 1) ψ ψ' _ _ (by omega) (fun s hs => ?_) fun q q' h1 h2 => hψ q q' h1 fun s hs hs' => ?_
    · rw [splice, splice]
      split_ifs
      · exact hp s hs
      · rfl
    · rw [h2 s hs (by omega), splice, if_pos hs']

theorem measurable_pathCont_joint [IsProbabilityMeasure P] {Y : Type*} [MeasurableSpace Y] {ψ : Y → (ℕ → X) → ℝ≥0∞}
    (hψ : Measurable fun q : Y × (ℕ → X) => ψ q.1 q.2) : ∀ (us : List Inp) (t : ℕ), (∀ u ∈ us, mdl.Regular u) →
    Measurable fun q : Y × (ℕ → X) => pathCont P mdl us t (ψ q.1) q.2
  | [], _, _ => hψ
  | u :: us, t, hu => by
    have hur := hu u (by simp)
    have ih := measurable_pathCont_joint hψ us (t + 1) fun u' h' => hu u' (by simp [h'])
    have h0 : Measurable fun q : (Y × (ℕ → X)) × K => q.1.2 t :=
      (measurable_pi_apply t).comp (measurable_snd.comp measurable_fst)
    have h1 : Measurable fun q : (Y × (ℕ → X)) × K => mdl.propagate q.2 (q.1.2 t) u :=
      hur.propagate.comp (measurable_snd.prodMk h0)
    have h2 : Measurable fun q : (Y × (ℕ → X)) × K => mdl.logPotential (q.1.2 t) (mdl.propagate q.2 (q.1.2 t) u) u :=
      hur.logPotential.comp (h0.prodMk h1)
    have h3 : Measurable fun q : (Y × (ℕ → X)) × K => (q.1.1, splice t q.1.2 (mdl.propagate q.2 (q.1.2 t) u)) :=
      (measurable_fst.comp measurable_fst).prodMk
        ((measurable_splice t).comp ((measurable_snd.comp measurable_fst).prodMk h1))
    have h4 : Measurable fun q : (Y × (ℕ → X)) × K =>
        ENNReal.ofReal (mdl.logPotential (q.1.2 t) (mdl.propagate q.2 (q.1.2 t) u) u).lik *
          pathCont P mdl us (t + 1) (ψ q.1.1) (splice t q.1.2 (mdl.propagate q.2 (q.1.2 t) u)) :=
      (ENNReal.measurable_ofReal.comp (Fl.measurable_lik.comp h2)).mul (ih.comp h3)
    exact h4.lintegral_prod_right'

theorem pathCont_lintegral [IsProbabilityMeasure P] {Y : Type*} [MeasurableSpace Y] {ν : Measure Y} [SFinite ν]
    {ψ : Y → (ℕ → X) → ℝ≥0∞} (hψ : Measurable fun q : Y × (ℕ → X) => ψ q.1 q.2) : ∀ (us : List Inp) (t : ℕ) (p : ℕ → X),
    (∀ u ∈ us, mdl.Regular u) →
    pathCont P mdl us t (fun q => ∫⁻ y, ψ y q ∂ν) p = ∫⁻ y, pathCont P mdl us t (ψ y) p ∂ν
  | [], _, _, _ => rfl
  | u :: us, t, p, hu => by
    have hur := hu u (by simp)
    have hu' : ∀ u' ∈ us, mdl.Regular u' := fun u' h' => hu u' (by simp [h'])
    have ih := fun p => pathCont_lintegral (ν := ν) hψ us (t + 1) p hu'
    have hm := measurable_pathCont_joint (P := P) hψ us (t + 1) hu'
    simp only [pathCont, pathQ, fkQ, ih]
    have h1 : Measurable fun k => mdl.propagate k (p t) u := hur.propagate.comp (measurable_id.prodMk measurable_const)
    have h2 : Measurable fun k => mdl.logPotential (p t) (mdl.propagate k (p t) u) u :=
      hur.logPotential.comp (measurable_const.prodMk h1)
    have h3 : Measurable fun q : K × Y => (q.2, splice t p (mdl.propagate q.1 (p t) u)) :=
      measurable_snd.prodMk ((measurable_splice t).comp (measurable_const.prodMk (h1.comp measurable_fst)))
    have h4 : Measurable fun q : K × Y => pathCont P mdl us (t + 1) (ψ q.2) (splice t p (mdl.propagate q.1 (p t) u)) :=
      hm.comp h3
    have h5 : Measurable fun q : K × Y => ENNReal.ofReal (mdl.logPotential (p t) (mdl.propagate q.1 (p t) u) u).lik *
        pathCont P mdl us (t + 1) (ψ q.2) (splice t p (mdl.propagate q.1 (p t) u)) :=
      ((ENNReal.measurable_ofReal.comp (Fl.measurable_lik.comp h2)).comp measurable_fst).mul h4
    rw [← lintegral_lintegral_swap h5.aemeasurable]
    refine lintegral_congr fun k => ?_
    have h6 : Measurable fun y => pathCont P mdl us (t + 1) (ψ y) (splice t p (mdl.propagate k (p t) u)) :=
      h4.comp (measurable_const.prodMk measurable_id)
    rw [lintegral_const_mul _ h6]

end cont

/-! ### A run -/

section run

variable [MeasurableSpace K] [MeasurableSpace X] {P : Measure K} {mdl : FKModel K X Inp}
  {I : K → (Fin N → Fl) → Fin N → Fin N} {C : K → (Fin N → Fl) → Fin N → Fin N → Fin N → Fin N}

/-- The expectation of a function of all states of a run of the conditional filter that continues from `H` at time
`t`. -/
def condExp (P : Measure K) (mdl : FKModel K X Inp) (C : K → (Fin N → Fl) → Fin N → Fin N → Fin N → Fin N)
    (Φ : (ℕ → Hist X N) → ℝ≥0∞) : (us : List Inp) → ℕ → (Fin (us.length + 1) → Fin N) → (ℕ → Hist X N) → (ℕ → X) → ℝ≥0∞
  | [], _, _, H, _ => Φ H
  | u :: us, t, b, H, x => ∫⁻ ks, condExp P mdl C Φ us (t + 1) (Fin.tail b)
      (Function.update H (t + 1) (cstepH mdl C u ks (x (t + 1)) (b 1) (b 0) (H t).1)) x ∂(Measure.pi fun _ => P)

/-- The expectation of a function of all states of a run of the filter that continues from `H` at time `t`. -/
def freeExp (P : Measure K) (mdl : FKModel K X Inp) (I : K → (Fin N → Fl) → Fin N → Fin N)
    (Φ : (ℕ → Hist X N) → ℝ≥0∞) : List Inp → ℕ → (ℕ → Hist X N) → ℝ≥0∞
  | [], _, H => Φ H
  | u :: us, t, H => ∫⁻ ks, freeExp P mdl I Φ us (t + 1)
      (Function.update H (t + 1) (stepH mdl I zeroLogits u ks (H t).1)) ∂(Measure.pi fun _ => P)

theorem measurable_condExp [IsProbabilityMeasure P] (hC : ConditionalLaw P C) {Φ : (ℕ → Hist X N) → ℝ≥0∞} (hΦ : Measurable Φ) :
    ∀ (us : List Inp) (t : ℕ) (b : Fin (us.length + 1) → Fin N), (∀ u ∈ us, mdl.Regular u) →
    Measurable fun q : (ℕ → Hist X N) × (ℕ → X) => condExp P mdl C Φ us t b q.1 q.2
  | [], _, _, _ => hΦ.comp measurable_fst
  | u :: us, t, b, hu => by
    have hur := hu u (by simp)
    have ih := measurable_condExp hC hΦ us (t + 1) (Fin.tail b) fun u' h' => hu u' (by simp [h'])
    have h1 : Measurable fun q : ((ℕ → Hist X N) × (ℕ → X)) × (Fin (N + 1) → K) => q.1.1 :=
      measurable_fst.comp measurable_fst
    have h2 : Measurable fun q : ((ℕ → Hist X N) × (ℕ → X)) × (Fin (N + 1) → K) => q.1.2 (t + 1) :=
      (measurable_pi_apply (t + 1)).comp (measurable_snd.comp measurable_fst)
    have h3 : Measurable fun q : ((ℕ → Hist X N) × (ℕ → X)) × (Fin (N + 1) → K) => (q.1.1 t).1 :=
      measurable_fst.comp ((measurable_pi_apply t).comp h1)
    have h4 := measurable_cstepH hur hC (b 1) (b 0) (measurable_snd (α := (ℕ → Hist X N) × (ℕ → X))
      (β := Fin (N + 1) → K)) h2 h3
    have h5 : Measurable fun q : ((ℕ → Hist X N) × (ℕ → X)) × (Fin (N + 1) → K) =>
        (Function.update q.1.1 (t + 1) (cstepH mdl C u q.2 (q.1.2 (t + 1)) (b 1) (b 0) (q.1.1 t).1), q.1.2) :=
      (measurable_update (t + 1) h1 h4).prodMk (measurable_snd.comp measurable_fst)
    have h6 : Measurable fun q : ((ℕ → Hist X N) × (ℕ → X)) × (Fin (N + 1) → K) => condExp P mdl C Φ us (t + 1) (Fin.tail b)
        (Function.update q.1.1 (t + 1) (cstepH mdl C u q.2 (q.1.2 (t + 1)) (b 1) (b 0) (q.1.1 t).1)) q.1.2 := ih.comp h5
    exact h6.lintegral_prod_right'

omit [MeasurableSpace X] in
theorem condExp_congr {Φ : (ℕ → Hist X N) → ℝ≥0∞} : ∀ (us : List Inp) (t : ℕ) (b : Fin (us.length + 1) → Fin N)
    (H : ℕ → Hist X N) (x x' : ℕ → X), (∀ s, t < s → x s = x' s) →
    condExp P mdl C Φ us t b H x = condExp P mdl C Φ us t b H x'
  | [], _, _, _, _, _, _ => rfl
  | u :: us, t, b, H, x, x', hx => by
    rw [condExp, condExp, hx (t + 1) (by omega)]
    exact lintegral_congr fun ks => condExp_congr us (t + 1) _ _ x x' fun s hs => hx s (by omega)

omit [MeasurableSpace K] [MeasurableSpace X] in
theorem sum_cons {M : Type*} [AddCommMonoid M] {n : ℕ} (f : (Fin (n + 1) → Fin N) → M) :
    ∑ b, f b = ∑ b' : Fin n → Fin N, ∑ b0, f (Fin.cons b0 b') := by
  rw [Finset.sum_comm, ← Fintype.sum_prod_type']
  exact (Fintype.sum_equiv (Fin.consEquiv fun _ => Fin N) _ _ fun _ => rfl).symm

/-- The run of the filter, weighted by its evidence, is the mixture of the runs of the conditional filter over the
reference path and its slots. -/
theorem freeExp_eq [IsProbabilityMeasure P] [NeZero N] (hC : ConditionalLaw P C) (hI : MarginalOf P C I)
    (hIm : Measurable fun q : K × (Fin N → Fl) => I q.1 q.2) {Φ : (ℕ → Hist X N) → ℝ≥0∞} (hΦ : Measurable Φ) :
    ∀ (us : List Inp) (t : ℕ) (H : ℕ → Hist X N) (T : ℕ), T = t + us.length → (∀ u ∈ us, mdl.Regular u) →
    (∀ u ∈ us, ∀ x x', (mdl.logPotential x x' u).IsFin) → Alive (H t).1 →
    freeExp P mdl I (fun H => ENNReal.ofReal (H T).1.2.2.lik * Φ H) us t H =
      ∑ b : Fin (us.length + 1) → Fin N, ((N : ℝ≥0∞)⁻¹) ^ us.length * (slotWeight (H t).1 (b 0) *
        pathCont P mdl us t (condExp P mdl C Φ us t b H) fun _ => (H t).1.1 (b 0))
  | [], t, H, T, hT, _, _, hH => by
    subst hT
    rw [sum_cons]
    simp only [freeExp, condExp, pathCont, List.length_nil, pow_zero, one_mul, Fin.cons_zero, slotWeight,
      Finset.univ_unique, Finset.sum_singleton]
    rw [← Finset.sum_mul, ← Finset.mul_sum, ← ENNReal.ofReal_sum_of_nonneg fun i _ => nw_nonneg _ i,
      nw_sum hH.weights, ENNReal.ofReal_one, mul_one]
  | u :: us, t, H, T, hT, hu, hf, hH => by
    have hur := hu u (by simp)
    have hu' : ∀ u' ∈ us, mdl.Regular u' := fun u' h' => hu u' (by simp [h'])
    have hf' : ∀ u' ∈ us, ∀ x x', (mdl.logPotential x x' u').IsFin := fun u' h' => hf u' (by simp [h'])
    obtain ⟨Ψ, hΨ⟩ : ∃ Ψ : (Fin (us.length + 1) → Fin N) → Hist X N → ℝ≥0∞, Ψ = fun b h =>
      pathCont P mdl us (t + 1) (condExp P mdl C Φ us (t + 1) b (Function.update H (t + 1) h)) fun _ => h.1.1 (b 0) :=
      ⟨_, rfl⟩
    have hcm := fun b => measurable_condExp (mdl := mdl) hC hΦ us (t + 1) b hu'
    have hΨm : ∀ b, Measurable (Ψ b) := fun b => by
      rw [hΨ]
      have h1 : Measurable fun q : Hist X N × (ℕ → X) => (Function.update H (t + 1) q.1, q.2) :=
        (measurable_update (t + 1) measurable_const measurable_fst).prodMk measurable_snd
      have h2 : Measurable fun q : Hist X N × (ℕ → X) =>
          condExp P mdl C Φ us (t + 1) b (Function.update H (t + 1) q.1) q.2 := (hcm b).comp h1
      have h3 : Measurable fun h : Hist X N => h.1.1 (b 0) :=
        (measurable_pi_apply (b 0)).comp (measurable_fst.comp measurable_fst)
      have h4 : Measurable fun h : Hist X N => (h, (fun _ => h.1.1 (b 0) : ℕ → X)) :=
        measurable_id.prodMk (measurable_pi_iff.mpr fun _ => h3)
      exact (measurable_pathCont_joint (P := P) (ψ := fun h => condExp P mdl C Φ us (t + 1) b (Function.update H (t + 1) h))
        h2 us (t + 1) hu').comp h4
    have h1 : ∀ ks, freeExp P mdl I (fun H => ENNReal.ofReal (H T).1.2.2.lik * Φ H) us (t + 1)
        (Function.update H (t + 1) (stepH mdl I zeroLogits u ks (H t).1)) =
        ∑ b : Fin (us.length + 1) → Fin N, ((N : ℝ≥0∞)⁻¹) ^ us.length *
          (slotWeight (stepH mdl I zeroLogits u ks (H t).1).1 (b 0) * Ψ b (stepH mdl I zeroLogits u ks (H t).1)) := by
      intro ks
      have h2 := freeExp_eq hC hI hIm hΦ us (t + 1)
        (Function.update H (t + 1) (stepH mdl I zeroLogits u ks (H t).1)) T (by rw [hT, List.length_cons]; omega) hu' hf'
        (by rw [Function.update_self]; exact hH.histFrom (hf u (by simp)) _ _)
      rw [h2, hΨ]
      simp only [Function.update_self]
    rw [freeExp, lintegral_congr h1]
    have hsw : ∀ b, Measurable fun c : Core X N => slotWeight c b := fun b => by
      have h2 : Measurable fun c : Core X N => ENNReal.ofReal c.2.2.lik :=
        ENNReal.measurable_ofReal.comp (Fl.measurable_lik.comp (measurable_snd.comp measurable_snd))
      have h3 : Measurable fun c : Core X N => ENNReal.ofReal (nw c.2.1 b) :=
        ENNReal.measurable_ofReal.comp ((measurable_nw b).comp (measurable_fst.comp measurable_snd))
      exact h2.mul h3
    have hst : Measurable fun ks => stepH mdl I zeroLogits u ks (H t).1 := by
      have h2 : Measurable fun ks : Fin (N + 1) → K => I (ks 0) (H t).1.2.1 := by
        have h3 : Measurable fun ks : Fin (N + 1) → K => (ks 0, (H t).1.2.1) :=
          (measurable_pi_apply 0).prodMk measurable_const
        exact hIm.comp h3
      refine measurable_histFrom hur h2 (next := fun ks m => mdl.propagate (ks m.succ)
        ((H t).1.1 (I (ks 0) (H t).1.2.1 m)) u) (measurable_pi_iff.mpr fun m => ?_) measurable_const
      have h3 : Measurable fun ks : Fin (N + 1) → K => (ks m.succ, (H t).1.1 (I (ks 0) (H t).1.2.1 m)) :=
        (measurable_pi_apply m.succ).prodMk (measurable_pick_entry measurable_const ((measurable_pi_apply m).comp h2))
      exact hur.propagate.comp h3
    have h2 : ∀ b : Fin (us.length + 1) → Fin N, Measurable fun ks =>
        slotWeight (stepH mdl I zeroLogits u ks (H t).1).1 (b 0) * Ψ b (stepH mdl I zeroLogits u ks (H t).1) := fun b =>
      ((hsw _).comp (measurable_fst.comp hst)).mul ((hΨm b).comp hst)
    rw [lintegral_finsetSum' _ fun b _ => ((h2 b).const_mul _).aemeasurable]
    refine Eq.trans ?_ (sum_cons (n := us.length + 1) _).symm
    refine Finset.sum_congr rfl fun b _ => ?_
    rw [lintegral_const_mul _ (h2 b), lintegral_pivot hC hI hIm hur (hΨm b) hH (b 0), ← mul_assoc, ← pow_succ,
      Finset.mul_sum]
    refine Finset.sum_congr rfl fun b0 _ => ?_
    rw [Fin.cons_zero, List.length_cons]
    congr 2
    -- the reference path takes its next step
    rw [pathCont, pathQ]
    refine lintegral_congr fun k => ?_
    congr 1
    generalize mdl.propagate k ((H t).1.1 b0) u = x'
    have h3 : ∀ ks, Ψ b (cstepH mdl C u ks x' (b 0) b0 (H t).1) = pathCont P mdl us (t + 1)
        (condExp P mdl C Φ us (t + 1) b (Function.update H (t + 1) (cstepH mdl C u ks x' (b 0) b0 (H t).1)))
        fun _ => x' := by
      intro ks
      rw [hΨ]
      have h4 : (cstepH mdl C u ks x' (b 0) b0 (H t).1).1.1 (b 0) = x' := by
        simp only [cstepH, histFrom, Function.update_self]
      simp only [h4]
    have h4 : Measurable fun q : (Fin (N + 1) → K) × (ℕ → X) => condExp P mdl C Φ us (t + 1) b
        (Function.update H (t + 1) (cstepH mdl C u q.1 x' (b 0) b0 (H t).1)) q.2 := by
      have h5 := measurable_cstepH hur hC (b 0) b0 (measurable_fst (α := Fin (N + 1) → K) (β := ℕ → X))
        (measurable_const (a := x')) (measurable_const (a := (H t).1))
      have h6 : Measurable fun q : (Fin (N + 1) → K) × (ℕ → X) =>
          (Function.update H (t + 1) (cstepH mdl C u q.1 x' (b 0) b0 (H t).1), q.2) :=
        (measurable_update (t + 1) measurable_const h5).prodMk measurable_snd
      exact (hcm b).comp h6
    beta_reduce
    rw [lintegral_congr h3, ← pathCont_lintegral (ψ := fun ks => condExp P mdl C Φ us (t + 1) b
      (Function.update H (t + 1) (cstepH mdl C u ks x' (b 0) b0 (H t).1))) h4 us (t + 1) _ hu']
    refine pathCont_congr (r := t + 1) us (t + 1) _ _ _ _ le_rfl (fun s hs => ?_) fun q q' hq hq' => ?_
    · rw [splice, if_neg (by omega)]
    · rw [condExp]
      have h5 : q' (t + 1) = x' := by rw [← hq (t + 1) le_rfl, hq' (t + 1) le_rfl le_rfl]
      rw [h5]
      refine lintegral_congr fun ks => ?_
      exact condExp_congr us (t + 1) b _ q q' fun s hs => hq s (by omega)

/-! ### The initial particles -/

/-- The history before the first step. -/
def initHist (xs : Fin N → X) : ℕ → Hist X N := fun _ => ((xs, fun _ => 0, 0), id)

/-- The expectation of a function of all states of a run of the conditional filter. -/
def condTotal (P : Measure K) (mdl : FKModel K X Inp) (C : K → (Fin N → Fl) → Fin N → Fin N → Fin N → Fin N)
    (u0 : Inp) (us : List Inp) (Φ : (ℕ → Hist X N) → ℝ≥0∞) (b : Fin (us.length + 1) → Fin N) (x : ℕ → X) : ℝ≥0∞ :=
  ∫⁻ a, condExp P mdl C Φ us 0 b (initHist (Function.update (fun i => mdl.initSample (a i) u0) (b 0) (x 0))) x
    ∂(Measure.pi fun _ => P)

theorem measurable_initHist {Ω : Type*} [MeasurableSpace Ω] {xs : Ω → Fin N → X} (h : Measurable xs) :
    Measurable fun ω => initHist (xs ω) :=
  measurable_pi_iff.mpr fun _ => (h.prodMk measurable_const).prodMk measurable_const

theorem measurable_init_update {u0 : Inp} (h0 : Measurable fun k => mdl.initSample k u0) (b : Fin N) {Ω : Type*}
    [MeasurableSpace Ω] {a : Ω → Fin N → K} (ha : Measurable a) {x : Ω → X} (hx : Measurable x) :
    Measurable fun ω => Function.update (fun i => mdl.initSample (a ω i) u0) b (x ω) := by
  refine measurable_pi_iff.mpr fun m => ?_
  by_cases hm : m = b
  · subst hm
    simp only [Function.update_self]
    exact hx
  · simp only [Function.update_of_ne hm]
    exact h0.comp ((measurable_pi_apply m).comp ha)

theorem measurable_condTotal_joint (hC : ConditionalLaw P C) {u0 : Inp}
    [IsProbabilityMeasure P] (h0 : Measurable fun k => mdl.initSample k u0) {Φ : (ℕ → Hist X N) → ℝ≥0∞} (hΦ : Measurable Φ)
    (us : List Inp) (b : Fin (us.length + 1) → Fin N) (hu : ∀ u ∈ us, mdl.Regular u) :
    Measurable fun q : (Fin N → K) × (ℕ → X) => condExp P mdl C Φ us 0 b
      (initHist (Function.update (fun i => mdl.initSample (q.1 i) u0) (b 0) (q.2 0))) q.2 := by
  have h1 : Measurable fun q : (Fin N → K) × (ℕ → X) => q.2 0 := (measurable_pi_apply 0).comp measurable_snd
  have h2 := measurable_initHist (measurable_init_update h0 (b 0)
    (measurable_fst (α := Fin N → K) (β := ℕ → X)) h1)
  have h3 : Measurable fun q : (Fin N → K) × (ℕ → X) =>
      (initHist (Function.update (fun i => mdl.initSample (q.1 i) u0) (b 0) (q.2 0)), q.2) := h2.prodMk measurable_snd
  exact (measurable_condExp hC hΦ us 0 b hu).comp h3

theorem measurable_condTotal (hC : ConditionalLaw P C) {u0 : Inp}
    [IsProbabilityMeasure P] (h0 : Measurable fun k => mdl.initSample k u0) {Φ : (ℕ → Hist X N) → ℝ≥0∞} (hΦ : Measurable Φ)
    (us : List Inp) (b : Fin (us.length + 1) → Fin N) (hu : ∀ u ∈ us, mdl.Regular u) :
    Measurable (condTotal P mdl C u0 us Φ b) :=
  (measurable_condTotal_joint hC h0 hΦ us b hu).lintegral_prod_left'

/-- The continuation of a path that starts from the initial distribution. -/
theorem lintegral_pathCont [IsProbabilityMeasure P] {u0 : Inp} (us : List Inp) (hu : ∀ u ∈ us, mdl.Regular u)
    {ψ : (ℕ → X) → ℝ≥0∞} (hψ : Measurable ψ) :
    ∫⁻ x, pathCont P mdl us 0 ψ (fun _ => x) ∂mdl.init P u0 = fkExp (mdl.init P u0) (us.map (mdl.step P)) ψ := by
  rw [fkExp]
  refine lintegral_congr fun x => ?_
  rw [pathCont_eq us 0 ψ (fun _ => x) hψ hu fun _ _ => rfl]
  refine fkPathExp_congr _ _ _ _ fun q hq => ?_
  congr 1
  funext s
  split_ifs with hs
  · rw [show s = 0 by omega, hq]
  · rfl

/-- The run of the filter, weighted by its evidence, is the mixture of the runs of the conditional filter over the
reference path, which follows the Feynman-Kac measure, and its slots, which are uniform. -/
theorem lintegral_freeExp [IsProbabilityMeasure P] [NeZero N] (hC : ConditionalLaw P C) (hI : MarginalOf P C I)
    (hIm : Measurable fun q : K × (Fin N → Fl) => I q.1 q.2) {u0 : Inp} (h0 : Measurable fun k => mdl.initSample k u0)
    {Φ : (ℕ → Hist X N) → ℝ≥0∞} (hΦ : Measurable Φ) (us : List Inp) (hu : ∀ u ∈ us, mdl.Regular u)
    (hf : ∀ u ∈ us, ∀ x x', (mdl.logPotential x x' u).IsFin) :
    ∫⁻ a, freeExp P mdl I (fun H => ENNReal.ofReal (H us.length).1.2.2.lik * Φ H) us 0
        (initHist fun i => mdl.initSample (a i) u0) ∂(Measure.pi fun _ => P) =
      ∑ b : Fin (us.length + 1) → Fin N, ((N : ℝ≥0∞)⁻¹) ^ (us.length + 1) *
        fkExp (mdl.init P u0) (us.map (mdl.step P)) (condTotal P mdl C u0 us Φ b) := by
  obtain ⟨G, hG⟩ : ∃ G : (Fin (us.length + 1) → Fin N) → K → (Fin N → K) → ℝ≥0∞, G = fun b k a =>
    pathCont P mdl us 0 (condExp P mdl C Φ us 0 b
      (initHist (Function.update (fun i => mdl.initSample (a i) u0) (b 0) (mdl.initSample k u0))))
      fun _ => mdl.initSample k u0 := ⟨_, rfl⟩
  have h1 : ∀ a : Fin N → K, freeExp P mdl I (fun H => ENNReal.ofReal (H us.length).1.2.2.lik * Φ H) us 0
      (initHist fun i => mdl.initSample (a i) u0) =
      ∑ b : Fin (us.length + 1) → Fin N, ((N : ℝ≥0∞)⁻¹) ^ (us.length + 1) * G b (a (b 0)) a := by
    intro a
    have hA : Alive ((initHist fun i => mdl.initSample (a i) u0) 0).1 := ⟨isLogits_zero, trivial⟩
    rw [freeExp_eq hC hI hIm hΦ us 0 _ us.length (by omega) hu hf hA]
    refine Finset.sum_congr rfl fun b _ => ?_
    have h2 : slotWeight ((initHist fun i => mdl.initSample (a i) u0) 0).1 (b 0) = (N : ℝ≥0∞)⁻¹ := by
      rw [slotWeight]
      simp only [initHist]
      rw [ofReal_nw_zero, Fl.zero_def, Fl.lik, Real.exp_zero, ENNReal.ofReal_one, one_mul]
    have h3 : Function.update (fun i => mdl.initSample (a i) u0) (b 0) (mdl.initSample (a (b 0)) u0) =
        fun i => mdl.initSample (a i) u0 := Function.update_eq_self (b 0) fun i => mdl.initSample (a i) u0
    rw [h2, ← mul_assoc, ← pow_succ, hG]
    beta_reduce
    rw [h3]
    rfl
  have hjoint : ∀ b : Fin (us.length + 1) → Fin N, Measurable fun q : ((Fin N → K) × K) × (ℕ → X) =>
      condExp P mdl C Φ us 0 b (initHist (Function.update (fun i => mdl.initSample (q.1.1 i) u0) (b 0)
        (mdl.initSample q.1.2 u0))) q.2 := by
    intro b
    have h2 : Measurable fun q : ((Fin N → K) × K) × (ℕ → X) => q.1.1 := measurable_fst.comp measurable_fst
    have h3 : Measurable fun q : ((Fin N → K) × K) × (ℕ → X) => mdl.initSample q.1.2 u0 :=
      h0.comp (measurable_snd.comp measurable_fst)
    have h4 := measurable_initHist (measurable_init_update h0 (b 0) h2 h3)
    have h5 : Measurable fun q : ((Fin N → K) × K) × (ℕ → X) =>
        (initHist (Function.update (fun i => mdl.initSample (q.1.1 i) u0) (b 0) (mdl.initSample q.1.2 u0)), q.2) :=
      h4.prodMk measurable_snd
    exact (measurable_condExp hC hΦ us 0 b hu).comp h5
  have hGm : ∀ b, Measurable fun q : (Fin N → K) × K => G b q.2 q.1 := by
    intro b
    rw [hG]
    have h2 := measurable_pathCont_joint (P := P) (ψ := fun q : (Fin N → K) × K => condExp P mdl C Φ us 0 b
      (initHist (Function.update (fun i => mdl.initSample (q.1 i) u0) (b 0) (mdl.initSample q.2 u0)))) (hjoint b) us 0 hu
    have h3 : Measurable fun q : (Fin N → K) × K => (q, (fun _ => mdl.initSample q.2 u0 : ℕ → X)) :=
      measurable_id.prodMk (measurable_pi_iff.mpr fun _ => h0.comp measurable_snd)
    exact h2.comp h3
  have hGu : ∀ b k y k', G b k (Function.update y (b 0) k') = G b k y := by
    intro b k y k'
    rw [hG]
    beta_reduce
    have h2 : Function.update (fun i => mdl.initSample (Function.update y (b 0) k' i) u0) (b 0) (mdl.initSample k u0) =
        Function.update (fun i => mdl.initSample (y i) u0) (b 0) (mdl.initSample k u0) := by
      funext m
      by_cases hm : m = b 0
      · subst hm
        simp only [Function.update_self]
      · simp only [Function.update_of_ne hm]
    rw [h2]
  have hGd : ∀ b : Fin (us.length + 1) → Fin N, Measurable fun a : Fin N → K => G b (a (b 0)) a := fun b => by
    have h2 : Measurable fun a : Fin N → K => (a, a (b 0)) := measurable_id.prodMk (measurable_pi_apply _)
    exact (hGm b).comp h2
  rw [lintegral_congr h1, lintegral_finsetSum' _ fun b _ => ((hGd b).const_mul _).aemeasurable]
  refine Finset.sum_congr rfl fun b _ => ?_
  rw [lintegral_const_mul _ (hGd b), lintegral_pi_split P (b 0) (hGm b) (hGu b)]
  congr 1
  have hcm := measurable_condTotal hC h0 hΦ us b hu
  have hp : Measurable fun x : X => pathCont P mdl us 0 (condTotal P mdl C u0 us Φ b) fun _ => x :=
    (measurable_pathCont hcm us 0 hu).comp (measurable_pi_iff.mpr fun _ => measurable_id)
  rw [← lintegral_pathCont us hu hcm, FKModel.init, lintegral_map hp h0]
  refine lintegral_congr fun k => ?_
  rw [hG]
  have h2 : Measurable fun q : (Fin N → K) × (ℕ → X) => condExp P mdl C Φ us 0 b
      (initHist (Function.update (fun i => mdl.initSample (q.1 i) u0) (b 0) (mdl.initSample k u0))) q.2 := by
    have h3 : Measurable fun q : (Fin N → K) × (ℕ → X) => ((q.1, k), q.2) :=
      (measurable_fst.prodMk measurable_const).prodMk measurable_snd
    exact (hjoint b).comp h3
  beta_reduce
  rw [← pathCont_lintegral (P := P) (ν := Measure.pi fun _ => P) (ψ := fun a : Fin N → K => condExp P mdl C Φ us 0 b
    (initHist (Function.update (fun i => mdl.initSample (a i) u0) (b 0) (mdl.initSample k u0)))) h2 us 0 _ hu]
  refine pathCont_congr (r := 0) us 0 _ _ _ _ le_rfl (fun _ _ => rfl) fun q q' hq hq' => ?_
  have h3 : q' 0 = mdl.initSample k u0 := by rw [← hq 0 le_rfl, hq' 0 le_rfl le_rfl]
  rw [condTotal, h3]
  refine lintegral_congr fun a => ?_
  exact condExp_congr us 0 b _ q q' fun s hs => hq s (by omega)

/-! ### Selecting a path -/

/-- A step of the filter followed by the backward moves of this step gives the right expectation. -/
def StepExact (P : Measure K) (mdl : FKModel K X Inp) (I : K → (Fin N → Fl) → Fin N → Fin N)
    (κ : ℕ → Core X N → X → Fin N → Fin N → ℝ≥0∞) (t : ℕ) (u : Inp) : Prop :=
  ∀ (ψ : (ℕ → X) → ℝ≥0∞), Measurable ψ → ∀ H : ℕ → Hist X N, Alive (H t).1 →
    ∫⁻ ks, invEst κ (Function.update H (t + 1) (stepH mdl I zeroLogits u ks (H t).1)) (t + 1) ψ
        ∂(Measure.pi fun _ => P) = invEst κ H t (pathQ P mdl u t ψ)

theorem freeExp_invEst [IsProbabilityMeasure P] [NeZero N] {κ : ℕ → Core X N → X → Fin N → Fin N → ℝ≥0∞}
    {ψ : (ℕ → X) → ℝ≥0∞} (hψ : Measurable ψ) : ∀ (us : List Inp) (t : ℕ) (H : ℕ → Hist X N) (T : ℕ), T = t + us.length →
    (∀ u ∈ us, mdl.Regular u) → (∀ u ∈ us, ∀ x x', (mdl.logPotential x x' u).IsFin) →
    (∀ s (hs : s < us.length), StepExact P mdl I κ (t + s) us[s]) → Alive (H t).1 →
    freeExp P mdl I (fun H => invEst κ H T ψ) us t H = invEst κ H t (pathCont P mdl us t ψ)
  | [], t, H, T, hT, _, _, _, _ => by
    subst hT
    rfl
  | u :: us, t, H, T, hT, hu, hf, hs, hH => by
    have hu' : ∀ u' ∈ us, mdl.Regular u' := fun u' h' => hu u' (by simp [h'])
    have h0 : StepExact P mdl I κ t u := hs 0 (by simp)
    rw [freeExp, pathCont, ← h0 _ (measurable_pathCont hψ us (t + 1) hu') H hH]
    refine lintegral_congr fun ks => ?_
    refine freeExp_invEst hψ us (t + 1) _ T (by rw [hT, List.length_cons]; omega) hu'
      (fun u' h' => hf u' (by simp [h'])) (fun s h' => ?_) ?_
    · have h1 := hs (s + 1) (by simpa using h')
      rw [show t + (s + 1) = t + 1 + s by omega] at h1
      exact h1
    · rw [Function.update_self]
      exact hH.histFrom (hf u (by simp)) _ _

end run

end

end Cuthbert.SMC
