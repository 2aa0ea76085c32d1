import Verif.Props.MarginalFilter

/-!
# The marginal particle filter: when proposals ignore the previous state it is unbiased, in general it is inconsistent
(C108)
-/

namespace Cuthbert.SMC
open MeasureTheory Set Resampling Spec Filter
open scoped ENNReal Topology

noncomputable section

variable {K X Inp : Type} {N : ℕ}

/-- One step of the marginal particle filter for the keys `ks`, if the proposals ignore the previous state (so that
the ancestors do not matter). -/
def mixStep (mdl : FKModel K X Inp) (u : Inp) (ks : Fin (N + 1) → K) (c : Core X N) : Core X N :=
  let next := fun i : Fin N => mdl.propagate (ks i.succ) (c.1 i) u
  let lw := fun i => Fl.logsumexp fun j => mdl.logPotential (c.1 j) (next i) u + (c.2.1 j - Fl.logsumexp c.2.1)
  (next, lw, Fl.logsumexp lw - Fl.logsumexp (fun _ : Fin N => (0 : Fl)) + c.2.2)

/-- The state at time `t` when the filter continues from `c` with key `k`; `keys` are the keys of the prepared states. -/
def mixAt (rng : Prng K) (mdl : FKModel K X Inp) :
    (us : List Inp) → ℕ → K → Core X N → (Fin us.length → K) → Core X N
  | [], _, _, c, _ => c
  | _ :: _, 0, _, c, _ => c
  | u :: us, t + 1, k, c, keys =>
    mixAt rng mdl us t (keys 0) (mixStep mdl u (rng.nth k (N + 1)) c) (Fin.tail keys)

variable {mdl : FKModel K X Inp} {u : Inp}

theorem mixAt_zero (rng : Prng K) (us : List Inp) (k : K) (c : Core X N) (keys : Fin us.length → K) :
    mixAt rng mdl us 0 k c keys = c := by cases us <;> rfl

theorem mixAt_succ (rng : Prng K) : ∀ (us : List Inp) (t : ℕ) (ht : t < us.length) (k : K) (c : Core X N)
    (keys : Fin us.length → K), mixAt rng mdl us (t + 1) k c keys =
      mixStep mdl us[t] (rng.nth ((Fin.cons k keys : Fin (us.length + 1) → K) ⟨t, by omega⟩) (N + 1))
        (mixAt rng mdl us t k c keys)
  | [], t, ht, _, _, _ => by simp at ht
  | u :: us, 0, _, k, c, keys => by
    rw [mixAt_zero, mixAt, mixAt_zero]
    rfl
  | u :: us, t + 1, ht, k, c, keys => by
    have ht' : t < us.length := by simpa using ht
    have e : (Fin.cons (keys 0) (Fin.tail keys) : Fin (us.length + 1) → K) = keys := Fin.cons_self_tail keys
    rw [mixAt, mixAt_succ rng us t ht', mixAt, e]
    rfl

/-- With finite log potentials the weights stay usable and the normalising constant a number. -/
theorem mixStep_good [NeZero N] (hfin : ∀ x x', (mdl.logPotential x x' u).IsFin) (ks : Fin (N + 1) → K) {c : Core X N}
    (hl : IsLogits c.2.1) (hz : c.2.2.IsLog) :
    (∀ i, (mixStep mdl u ks c).2.1 i = Fl.log (Fl.fin (∑ j, nw c.2.1 j *
      (mdl.logPotential (c.1 j) (mdl.propagate (ks i.succ) (c.1 i) u) u).lik))) ∧
    IsLogits (mixStep mdl u ks c).2.1 ∧ (mixStep mdl u ks c).2.2.IsLog := by
  have hw : ∀ i, (mixStep mdl u ks c).2.1 i = Fl.log (Fl.fin (∑ j, nw c.2.1 j *
      (mdl.logPotential (c.1 j) (mdl.propagate (ks i.succ) (c.1 i) u) u).lik)) := fun i =>
    mixture_weight hl fun j => (hfin _ _).isLog
  have hpos : ∀ i : Fin N, 0 < ∑ j, nw c.2.1 j *
      (mdl.logPotential (c.1 j) (mdl.propagate (ks i.succ) (c.1 i) u) u).lik := by
    intro i
    have h1 : ∀ j, 0 < (mdl.logPotential (c.1 j) (mdl.propagate (ks i.succ) (c.1 i) u) u).lik := fun j => by
      have := hfin (c.1 j) (mdl.propagate (ks i.succ) (c.1 i) u)
      generalize mdl.logPotential (c.1 j) (mdl.propagate (ks i.succ) (c.1 i) u) u = g at this ⊢
      cases g <;> first | exact this.elim | exact Real.exp_pos _
    have h2 : ∃ j, 0 < nw c.2.1 j := by
      by_contra hc
      push Not at hc
      have := Finset.sum_nonpos fun j (_ : j ∈ Finset.univ) => hc j
      rw [nw_sum hl] at this
      linarith
    obtain ⟨j, hj⟩ := h2
    exact Finset.sum_pos' (fun j _ => mul_nonneg (nw_nonneg _ _) (h1 j).le) ⟨j, Finset.mem_univ j, mul_pos hj (h1 j)⟩
  have hL : IsLogits (mixStep mdl u ks c).2.1 := by
    refine ⟨fun i => ?_, 0, ?_⟩
    · rw [hw i]
      exact Fl.isLog_log (hpos i).le
    · rw [hw 0, Fl.log_fin _ (hpos 0)]
      trivial
  refine ⟨hw, hL, ?_⟩
  have e : (mixStep mdl u ks c).2.2 = Fl.logsumexp (mixStep mdl u ks c).2.1 -
      Fl.logsumexp (fun _ : Fin N => (0 : Fl)) + c.2.2 := rfl
  rw [e, logsumexp_zero, logsumexp_eq hL, Fl.fin_sub]
  exact Fl.IsLog.add trivial hz

theorem est_mixStep [NeZero N] (hfin : ∀ x x', (mdl.logPotential x x' u).IsFin) (f : X → ℝ≥0∞) (ks : Fin (N + 1) → K)
    {c : Core X N} (hl : IsLogits c.2.1) (hz : c.2.2.IsLog) :
    est f (mixStep mdl u ks c) = ENNReal.ofReal c.2.2.lik * ∑ i : Fin N, ENNReal.ofReal (N : ℝ)⁻¹ *
      ∑ j, ENNReal.ofReal (nw c.2.1 j) *
        (ENNReal.ofReal (mdl.logPotential (c.1 j) (mdl.propagate (ks i.succ) (c.1 i) u) u).lik *
          f (mdl.propagate (ks i.succ) (c.1 i) u)) := by
  obtain ⟨hw, hL, -⟩ := mixStep_good hfin ks hl hz
  unfold est
  rw [Finset.mul_sum _ _ (ENNReal.ofReal c.2.2.lik), Finset.mul_sum _ _ (ENNReal.ofReal (mixStep mdl u ks c).2.2.lik)]
  refine Finset.sum_congr rfl fun i _ => ?_
  have h0 : 0 ≤ ∑ j, nw c.2.1 j * (mdl.logPotential (c.1 j) (mdl.propagate (ks i.succ) (c.1 i) u) u).lik :=
    Finset.sum_nonneg fun j _ => mul_nonneg (nw_nonneg _ _) (Fl.lik_nonneg _)
  have h1 := step_weight (lp := (mixStep mdl u ks c).2.1) (l := fun _ => (0 : Fl)) hL.1 isLogits_zero hz i
  have e : (fun m => (mixStep mdl u ks c).2.1 m + (0 : Fl)) = (mixStep mdl u ks c).2.1 := funext fun m => add_zero _
  rw [e, nw_zero, hw i, Fl.lik_log h0] at h1
  have e2 : (mixStep mdl u ks c).2.2 = Fl.logsumexp (mixStep mdl u ks c).2.1 -
      Fl.logsumexp (fun _ : Fin N => (0 : Fl)) + c.2.2 := rfl
  rw [← mul_assoc, ← ENNReal.ofReal_mul (Fl.lik_nonneg _), e2, h1, ENNReal.ofReal_mul (Fl.lik_nonneg _),
    ENNReal.ofReal_mul (by positivity), ENNReal.ofReal_sum_of_nonneg
      fun j _ => mul_nonneg (nw_nonneg _ _) (Fl.lik_nonneg _), mul_assoc, mul_assoc, Finset.sum_mul]
  congr 2
  refine Finset.sum_congr rfl fun j _ => ?_
  rw [ENNReal.ofReal_mul (nw_nonneg _ _), mul_assoc]
  rfl

section law

variable [MeasurableSpace K] [MeasurableSpace X] {P : Measure K} [IsProbabilityMeasure P]

omit [IsProbabilityMeasure P] in
theorem measurable_mixStep (hu : mdl.Regular u) :
    Measurable fun q : (Fin (N + 1) → K) × Core X N => mixStep mdl u q.1 q.2 := by
  have hx : ∀ j, Measurable fun q : (Fin (N + 1) → K) × Core X N => q.2.1 j := fun j =>
    (measurable_pi_apply j).comp (measurable_fst.comp measurable_snd)
  have hl : Measurable fun q : (Fin (N + 1) → K) × Core X N => q.2.2.1 :=
    measurable_fst.comp (measurable_snd.comp measurable_snd)
  have hnext : ∀ i : Fin N, Measurable fun q : (Fin (N + 1) → K) × Core X N =>
      mdl.propagate (q.1 i.succ) (q.2.1 i) u := fun i =>
    hu.propagate.comp (((measurable_pi_apply i.succ).comp measurable_fst).prodMk (hx i))
  have hlw : Measurable fun (q : (Fin (N + 1) → K) × Core X N) (i : Fin N) =>
      Fl.logsumexp fun j => mdl.logPotential (q.2.1 j) (mdl.propagate (q.1 i.succ) (q.2.1 i) u) u +
        (q.2.2.1 j - Fl.logsumexp q.2.2.1) := by
    refine measurable_pi_iff.mpr fun i => ?_
    have h1 : Measurable fun (q : (Fin (N + 1) → K) × Core X N) (j : Fin N) =>
        mdl.logPotential (q.2.1 j) (mdl.propagate (q.1 i.succ) (q.2.1 i) u) u +
        (q.2.2.1 j - Fl.logsumexp q.2.2.1) := by
      refine measurable_pi_iff.mpr fun j => ?_
      have h2 : Measurable fun q : (Fin (N + 1) → K) × Core X N =>
          mdl.logPotential (q.2.1 j) (mdl.propagate (q.1 i.succ) (q.2.1 i) u) u :=
        hu.logPotential.comp ((hx j).prodMk (hnext i))
      exact Fl.measurable_add.comp (h2.prodMk (((measurable_pi_apply j).comp hl).fl_sub
        (Fl.measurable_logsumexp.comp hl)))
    exact Fl.measurable_logsumexp.comp h1
  have hz : Measurable fun q : (Fin (N + 1) → K) × Core X N => q.2.2.2 :=
    measurable_snd.comp (measurable_snd.comp measurable_snd)
  have hZ := Fl.measurable_add.comp (((Fl.measurable_logsumexp.comp hlw).fl_sub
    (measurable_const (a := Fl.logsumexp (fun _ : Fin N => (0 : Fl))))).prodMk hz)
  exact (measurable_pi_iff.mpr hnext).prodMk (hlw.prodMk hZ)

/-- The expectation of the estimate after one step with fresh keys. -/
theorem lintegral_mixStep [NeZero N] (hu : mdl.Regular u) (hfin : ∀ x x', (mdl.logPotential x x' u).IsFin)
    (hp : ∀ k x y, mdl.propagate k x u = mdl.propagate k y u) {f : X → ℝ≥0∞} (hf : Measurable f) {c : Core X N}
    (hl : IsLogits c.2.1) (hz : c.2.2.IsLog) :
    ∫⁻ ks, est f (mixStep mdl u ks c) ∂(Measure.pi fun _ => P) = est (fkQ P mdl u f) c := by
  simp only [est_mixStep hfin f _ hl hz]
  have hw := measurable_weighted hu hf
  have hterm : ∀ i j : Fin N, Measurable fun k : K => ENNReal.ofReal (nw c.2.1 j) *
      (ENNReal.ofReal (mdl.logPotential (c.1 j) (mdl.propagate k (c.1 i) u) u).lik *
          f (mdl.propagate k (c.1 i) u)) := by
    intro i j
    simp only [hp _ (c.1 i) (c.1 j)]
    exact (hw.comp (measurable_const.prodMk measurable_id)).const_mul _
  have hsum : ∀ i : Fin N, Measurable fun k : K => ∑ j, ENNReal.ofReal (nw c.2.1 j) *
      (ENNReal.ofReal (mdl.logPotential (c.1 j) (mdl.propagate k (c.1 i) u) u).lik *
          f (mdl.propagate k (c.1 i) u)) := fun i => Finset.measurable_fun_sum _ fun j _ => hterm i j
  have hks : ∀ i : Fin N, Measurable fun ks : Fin (N + 1) → K => ∑ j, ENNReal.ofReal (nw c.2.1 j) *
      (ENNReal.ofReal (mdl.logPotential (c.1 j) (mdl.propagate (ks i.succ) (c.1 i) u) u).lik *
          f (mdl.propagate (ks i.succ) (c.1 i) u)) := fun i =>
    Measurable.comp (f := fun ks : Fin (N + 1) → K => ks i.succ) (hsum i) (measurable_pi_apply i.succ)
  rw [lintegral_const_mul _ (Finset.measurable_fun_sum _ fun i _ => (hks i).const_mul _),
    lintegral_finsetSum _ fun i _ => (hks i).const_mul _]
  have h1 : ∀ i : Fin N, ∫⁻ ks : Fin (N + 1) → K, ENNReal.ofReal (N : ℝ)⁻¹ * ∑ j, ENNReal.ofReal (nw c.2.1 j) *
      (ENNReal.ofReal (mdl.logPotential (c.1 j) (mdl.propagate (ks i.succ) (c.1 i) u) u).lik *
          f (mdl.propagate (ks i.succ) (c.1 i) u)) ∂(Measure.pi fun _ => P) =
      ENNReal.ofReal (N : ℝ)⁻¹ * ∑ j, ENNReal.ofReal (nw c.2.1 j) * fkQ P mdl u f (c.1 j) := by
    intro i
    rw [lintegral_const_mul _ (hks i), (measurePreserving_eval (fun _ : Fin (N + 1) => P) i.succ).lintegral_comp (hsum i),
      lintegral_finsetSum _ fun j _ => hterm i j]
    congr 1
    refine Finset.sum_congr rfl fun j _ => ?_
    simp only [hp _ (c.1 i) (c.1 j)]
    exact lintegral_const_mul _ (hw.comp (measurable_const.prodMk measurable_id))
  rw [Finset.sum_congr rfl fun i _ => h1 i, Finset.sum_const, Finset.card_univ, Fintype.card_fin, nsmul_eq_mul,
    ← mul_assoc (N : ℝ≥0∞), ENNReal.ofReal_inv_of_pos (by exact_mod_cast NeZero.pos N), ENNReal.ofReal_natCast,
    ENNReal.mul_inv_cancel (by exact_mod_cast NeZero.ne N) (by simp), one_mul]
  rfl

variable {rng : Rng K} (h : IdealRng rng P)

include h

omit [IsProbabilityMeasure P] in
theorem measurable_mixAt : ∀ (us : List Inp) (t : ℕ), (∀ u ∈ us, mdl.Regular u) →
    Measurable fun q : K × Core X N × (Fin us.length → K) => mixAt rng.toPrng mdl us t q.1 q.2.1 q.2.2
  | [], _, _ => measurable_fst.comp measurable_snd
  | _ :: _, 0, _ => measurable_fst.comp measurable_snd
  | u :: us, t + 1, hu => by
    have ih := measurable_mixAt us t fun u' h' => hu u' (by simp [h'])
    have h1 : Measurable fun q : K × Core X N × (Fin (us.length + 1) → K) =>
        mixStep mdl u (rng.nth q.1 (N + 1)) q.2.1 :=
      (measurable_mixStep (hu u (by simp))).comp (((measurable_nthAll h (N + 1)).comp measurable_fst).prodMk
        (measurable_fst.comp measurable_snd))
    have h2 : Measurable fun q : K × Core X N × (Fin (us.length + 1) → K) => q.2.2 :=
      measurable_snd.comp measurable_snd
    have h3 : Measurable fun q : K × Core X N × (Fin (us.length + 1) → K) => Fin.tail q.2.2 :=
      measurable_pi_iff.mpr fun i => (measurable_pi_apply i.succ).comp h2
    exact ih.comp (((measurable_pi_apply 0).comp h2).prodMk (h1.prodMk h3))

/-- The expectation of the estimate at time `t`, given the present state. -/
theorem lintegral_mixAt [NeZero N] {f : X → ℝ≥0∞} (hf : Measurable f) :
    ∀ (us : List Inp) (t : ℕ) (c : Core X N), t ≤ us.length → (∀ u ∈ us, mdl.Regular u) →
    (∀ u ∈ us, ∀ x x', (mdl.logPotential x x' u).IsFin) →
    (∀ u ∈ us, ∀ k x y, mdl.propagate k x u = mdl.propagate k y u) → IsLogits c.2.1 → c.2.2.IsLog →
    ∫⁻ k, ∫⁻ keys, est f (mixAt rng.toPrng mdl us t k c keys) ∂(Measure.pi fun _ => P) ∂P = est (fkG P mdl f us t) c
  | [], t, c, _, _, _, _, _, _ => by simp [mixAt, fkG]
  | _ :: _, 0, c, _, _, _, _, _, _ => by simp [mixAt, fkG]
  | u :: us, t + 1, c, ht, hu, hfin, hp, hl, hz => by
    have hur := hu u (by simp)
    have hu' : ∀ u' ∈ us, mdl.Regular u' := fun u' h' => hu u' (by simp [h'])
    have ht' : t ≤ us.length := by simpa using ht
    simp only [mixAt, fkG]
    have h1 : ∀ k, ∫⁻ keys : Fin (us.length + 1) → K, est f (mixAt rng.toPrng mdl us t (keys 0)
          (mixStep mdl u (rng.nth k (N + 1)) c) (Fin.tail keys)) ∂(Measure.pi fun _ => P) =
        est (fkG P mdl f us t) (mixStep mdl u (rng.nth k (N + 1)) c) := by
      intro k
      obtain ⟨-, hl', hz'⟩ := mixStep_good (hfin u (by simp)) (rng.nth k (N + 1)) hl hz
      rw [← lintegral_mixAt hf us t _ ht' hu' (fun u' h' => hfin u' (by simp [h'])) (fun u' h' => hp u' (by simp [h']))
        hl' hz', lintegral_pi_cons P]
      · simp only [Fin.cons_zero, Fin.tail_cons]
      · have h2 : Measurable fun keys : Fin (us.length + 1) → K => Fin.tail keys :=
          measurable_pi_iff.mpr fun i => measurable_pi_apply i.succ
        exact (measurable_est hf).comp ((measurable_mixAt h us t hu').comp
          ((measurable_pi_apply 0).prodMk (measurable_const.prodMk h2)))
    have h3 : Measurable fun ks => est (fkG P mdl f us t) (mixStep mdl u ks c) :=
      (measurable_est (measurable_fkG hf us t hu')).comp ((measurable_mixStep hur).comp
        (measurable_id.prodMk measurable_const))
    refine (lintegral_congr h1).trans ?_
    rw [(h.split (N + 1)).lintegral_comp h3,
      lintegral_mixStep hur (hfin u (by simp)) (hp u (by simp)) (measurable_fkG hf us t hu') hl hz]

omit [IsProbabilityMeasure P] in
/-- The state at time `t` as a function of the keys. -/
theorem measurable_mixRun {u0 : Inp} (h0 : Measurable fun k => mdl.initSample k u0) (us : List Inp) (t : ℕ)
    (hu : ∀ u' ∈ us, mdl.Regular u') :
    Measurable fun keys : Fin (us.length + 1) → K =>
      (mixAt rng.toPrng mdl us t (keys 0) (coreInit mdl u0 (rng.nth (keys 0) N)) (Fin.tail keys) : Core X N) := by
  have h2 : Measurable fun keys : Fin (us.length + 1) → K => Fin.tail keys :=
    measurable_pi_iff.mpr fun i => measurable_pi_apply i.succ
  have h3 : Measurable fun keys : Fin (us.length + 1) → K =>
      (coreInit mdl u0 (rng.nth (keys 0) N) : Core X N) :=
    (measurable_coreInit h0).comp ((measurable_nthAll h N).comp (measurable_pi_apply 0))
  exact (measurable_mixAt h us t hu).comp ((measurable_pi_apply 0).prodMk (h3.prodMk h2))

theorem lintegral_mixRun [NeZero N] (hind : IndepSplit rng.toPrng P) {u0 : Inp}
    (h0 : Measurable fun k => mdl.initSample k u0) {f : X → ℝ≥0∞} (hf : Measurable f)
    (us : List Inp) (t : ℕ) (ht : t ≤ us.length) (hu : ∀ u' ∈ us, mdl.Regular u')
    (hfin : ∀ u ∈ us, ∀ x x', (mdl.logPotential x x' u).IsFin)
    (hp : ∀ u ∈ us, ∀ k x y, mdl.propagate k x u = mdl.propagate k y u) :
    ∫⁻ k, est f (mixAt rng.toPrng mdl us t (rng.nth k (us.length + 1) 0)
        (coreInit mdl u0 (rng.nth (rng.nth k (us.length + 1) 0) N) : Core X N)
        (Fin.tail (rng.nth k (us.length + 1)))) ∂P = ∫⁻ x, fkG P mdl f us t x ∂mdl.init P u0 := by
  have h4 : Measurable fun keys : Fin (us.length + 1) → K =>
      est f (mixAt rng.toPrng mdl us t (keys 0) (coreInit mdl u0 (rng.nth (keys 0) N) : Core X N) (Fin.tail keys)) :=
    (measurable_est hf).comp (measurable_mixRun h h0 us t hu)
  rw [(h.split (us.length + 1)).lintegral_comp h4, lintegral_pi_cons P h4]
  simp only [Fin.cons_zero, Fin.tail_cons]
  have hzero : ∫⁻ k, est f (coreInit mdl u0 (rng.nth k N) : Core X N) ∂P =
      ∫⁻ x, f x ∂mdl.init P u0 := by
    rw [← lintegral_coreInit (N := N) h0 hf]
    exact (h.split N).lintegral_comp (f := fun a => est f (coreInit mdl u0 a : Core X N))
      ((measurable_est hf).comp (measurable_coreInit h0))
  match us, t, ht with
  | [], _, _ => simpa [mixAt, fkG] using hzero
  | _ :: _, 0, _ => simpa [mixAt, fkG] using hzero
  | u :: us, t + 1, ht =>
    have hur := hu u (by simp)
    have hu' : ∀ u' ∈ us, mdl.Regular u' := fun u' h' => hu u' (by simp [h'])
    have ht' : t ≤ us.length := by simpa using ht
    have hg := measurable_fkG (P := P) hf us t hu'
    have hc : ∀ a : Fin N → K, IsLogits (coreInit mdl u0 a : Core X N).2.1 ∧ (coreInit mdl u0 a : Core X N).2.2.IsLog :=
      fun a => ⟨isLogits_zero, trivial⟩
    have h1 : ∀ k, ∫⁻ keys : Fin (us.length + 1) → K, est f (mixAt rng.toPrng mdl us t (keys 0)
          (mixStep mdl u (rng.nth k (N + 1)) (coreInit mdl u0 (rng.nth k N) : Core X N)) (Fin.tail keys))
          ∂(Measure.pi fun _ => P) =
        est (fkG P mdl f us t) (mixStep mdl u (rng.nth k (N + 1)) (coreInit mdl u0 (rng.nth k N) : Core X N)) := by
      intro k
      obtain ⟨-, hl', hz'⟩ := mixStep_good (hfin u (by simp)) (rng.nth k (N + 1)) (hc (rng.nth k N)).1 (hc (rng.nth k N)).2
      rw [← lintegral_mixAt h hf us t _ ht' hu' (fun u' h' => hfin u' (by simp [h'])) (fun u' h' => hp u' (by simp [h']))
        hl' hz', lintegral_pi_cons P]
      · simp only [Fin.cons_zero, Fin.tail_cons]
      · have h2 : Measurable fun keys : Fin (us.length + 1) → K => Fin.tail keys :=
          measurable_pi_iff.mpr fun i => measurable_pi_apply i.succ
        exact (measurable_est hf).comp ((measurable_mixAt h us t hu').comp
          ((measurable_pi_apply 0).prodMk (measurable_const.prodMk h2)))
    refine (lintegral_congr h1).trans ?_
    have h5 : Measurable fun q : (Fin N → K) × (Fin (N + 1) → K) =>
        est (fkG P mdl f us t) (mixStep mdl u q.2 (coreInit mdl u0 q.1)) :=
      (measurable_est hg).comp ((measurable_mixStep hur).comp (measurable_snd.prodMk
        ((measurable_coreInit h0).comp measurable_fst)))
    refine ((hind N (N + 1) (by omega)).lintegral_comp h5).trans ?_
    rw [lintegral_prod _ h5.aemeasurable]
    simp only [fun a => lintegral_mixStep (P := P) hur (hfin u (by simp)) (hp u (by simp)) hg (hc a).1 (hc a).2]
    exact lintegral_coreInit h0 (measurable_fkQ hur hg)

end law

/-- The run of the filter is described by `mixAt`. -/
theorem marginal_run_mix (rng : Prng K) (mdl : FKModel K X Inp) (dummy : X) [NeZero N] {R : Resampler K N X}
    (hR : ∀ k l pos, ∃ r, R k l pos N = .ok r ∧ r.logits = fun _ => 0) (u0 : Inp) (us : List Inp)
    (hp : ∀ u ∈ us, ∀ k x y, mdl.propagate k x u = mdl.propagate k y u) (k : K) :
    ∃ S : ℕ → MPFState K X Inp N,
      (filter rng (marginalParticleFilter rng mdl dummy N R) (u0 :: us) false (some k)).result =
        .ok ((List.range (us.length + 1)).map fun t => .ok (S t)) ∧
      ∀ t ≤ us.length, ((S t).particles, (S t).logWeights, (S t).logZ) =
        mixAt rng mdl us t (rng.nth k (us.length + 1) 0)
          (coreInit mdl u0 (rng.nth (rng.nth k (us.length + 1) 0) N)) (Fin.tail (rng.nth k (us.length + 1))) := by
  obtain ⟨states, hs, hlen, h3, h4⟩ := marginal_run rng mdl dummy R u0 us k
  have key : ∀ t, ∃ s : MPFState K X Inp N, ∀ ht : t ≤ us.length, states[t]? = some (.ok s) ∧
      s.key = rng.nth k (us.length + 1) ⟨t, by omega⟩ ∧
      (s.particles, s.logWeights, s.logZ) =
        mixAt rng mdl us t (rng.nth k (us.length + 1) 0)
          (coreInit mdl u0 (rng.nth (rng.nth k (us.length + 1) 0) N)) (Fin.tail (rng.nth k (us.length + 1))) := by
    intro t
    induction t with
    | zero =>
      refine ⟨⟨rng.nth k (us.length + 1) 0, fun i => mdl.initSample (rng.nth (rng.nth k (us.length + 1) 0) N i) u0,
        fun _ => 0, u0, 0⟩, fun _ => ⟨?_, rfl, ?_⟩⟩
      · rw [h3]
        unfold marginalInitPrepare
        simp only
        rw [logsumexp_zero, log_natCast, Fl.fin_sub, sub_self]
        rfl
      · rw [mixAt_zero]
        rfl
    | succ t ih =>
      by_cases ht : t < us.length
      · obtain ⟨s, h5⟩ := ih
        obtain ⟨h5, h6, h7⟩ := h5 ht.le
        have h8 := h4 t ht _ h5
        obtain ⟨s2, hs2⟩ : ∃ s2 : MPFState K X Inp N, s2 = ⟨rng.nth k (us.length + 1) ⟨t + 1, by omega⟩, fun _ => dummy,
          fun _ => 0, us[t], 0⟩ := ⟨_, rfl⟩
        obtain ⟨r, hr, hr0⟩ := hR (rng.nth s.key (N + 1) 0) s.logWeights s.particles
        have hx : ∀ i : Fin N, mdl.propagate (rng.nth s.key (N + 1) i.succ) (s.particles i) us[t] =
            mdl.propagate (rng.nth s.key (N + 1) i.succ) (r.positions i) us[t] := fun i =>
          hp _ (List.getElem_mem ht) _ _ _
        have h9 := marginalFilterCombine_eq (mdl := mdl) (s1 := s) (s2 := s2) hr rfl rfl
        refine ⟨_, fun _ => ⟨h8.trans (congrArg some (by rw [← hs2]; exact h9)), by rw [hs2], ?_⟩⟩
        rw [mixAt_succ rng us t ht, ← h7, hr0]
        have e : (Fin.cons (rng.nth k (us.length + 1) 0) (Fin.tail (rng.nth k (us.length + 1))) :
          Fin (us.length + 1) → K) = rng.nth k (us.length + 1) := Fin.cons_self_tail _
        rw [e, ← h6]
        simp only [mixStep, hx, hs2]
      · exact ⟨⟨k, fun _ => dummy, fun _ => 0, u0, 0⟩, fun h => absurd h (by omega)⟩
  choose S hS using key
  refine ⟨S, ?_, fun t ht => (hS t ht).2.2⟩
  rw [hs]
  congr 1
  refine List.ext_getElem? fun t => ?_
  rcases Nat.lt_or_ge t (us.length + 1) with h5 | h5
  · rw [(hS t (by omega)).1, List.getElem?_map, List.getElem?_range h5]
    rfl
  · rw [List.getElem?_eq_none (by omega), List.getElem?_eq_none (by simpa using h5)]

/-- **C108.** If the proposals do not depend on the previous state, the marginal particle filter is unbiased for every
number of particles and every resampling function that returns equal weights: at every time the normalising constant
times the weighted average of any function of the present state has the right expectation (with the function `1`: the
evidence). -/
theorem marginal_filter_proposals_partial [NeZero N] [MeasurableSpace K] [MeasurableSpace X] {P : Measure K} {rng : Rng K}
    (h : IdealRng rng P) (hind : IndepSplit rng.toPrng P) (mdl : FKModel K X Inp) (dummy : X) {R : Resampler K N X}
    (hR : ∀ k l pos, ∃ r, R k l pos N = .ok r ∧ r.logits = fun _ => 0) {u0 : Inp} {us : List Inp}
    (h0 : Measurable fun k => mdl.initSample k u0) (hu : ∀ u ∈ us, mdl.Regular u)
    (hfin : ∀ u ∈ us, ∀ x x', (mdl.logPotential x x' u).IsFin)
    (hp : ∀ u ∈ us, ∀ k x y, mdl.propagate k x u = mdl.propagate k y u) :
    ∃ S : K → ℕ → MPFState K X Inp N,
      (∀ k, (filter rng.toPrng (marginalParticleFilter rng.toPrng mdl dummy N R) (u0 :: us) false (some k)).result =
        .ok ((List.range (us.length + 1)).map fun t => .ok (S k t))) ∧
      ∀ t ≤ us.length, ∀ f : X → ℝ≥0∞, Measurable f →
        ∫⁻ k, ENNReal.ofReal (S k t).logZ.lik * ∑ i, ENNReal.ofReal (nw (S k t).logWeights i) * f ((S k t).particles i) ∂P =
          fkExp (mdl.init P u0) ((us.take t).map (mdl.step P)) fun p => f (p t) := by
  have := h.prob
  choose S h1 h2 using marginal_run_mix rng.toPrng mdl dummy hR u0 us hp
  refine ⟨S, h1, fun t ht f hf => ?_⟩
  have e : ∀ k, ENNReal.ofReal (S k t).logZ.lik * ∑ i, ENNReal.ofReal (nw (S k t).logWeights i) * f ((S k t).particles i) =
      est f (mixAt rng.toPrng mdl us t (rng.nth k (us.length + 1) 0)
        (coreInit mdl u0 (rng.nth (rng.nth k (us.length + 1) 0) N) : Core X N)
        (Fin.tail (rng.nth k (us.length + 1)))) := fun k => by
    rw [← h2 k t ht]
    rfl
  simp only [e]
  rw [lintegral_mixRun h hind h0 hf us t ht hu hfin hp, fkExp]
  exact lintegral_congr fun x => fkG_eq hf us t x ht hu

/-- The resampling functions other than the adaptive ones meet the hypothesis, and a model of a random walk whose
proposals are drawn independently of the past does. -/
example : ∃ rng : Rng Key, IdealRng rng keyLaw ∧ IndepSplit rng.toPrng keyLaw ∧
    (∀ k l (pos : Fin 5 → ℝ), ∃ r, systematic rng .cpu k l pos 5 = .ok r ∧ r.logits = fun _ => 0) ∧
    ∃ mdl : FKModel Key ℝ ℝ, (Measurable fun k => mdl.initSample k 0) ∧ (∀ u, mdl.Regular u) ∧
      (∀ x x' u, (mdl.logPotential x x' u).IsFin) ∧ (∀ k x y u, mdl.propagate k x u = mdl.propagate k y u) ∧
      mdl.logPotential 0 1 2 ≠ mdl.logPotential 1 1 2 := by
  obtain ⟨rng, h1, h2⟩ := exists_ideal_indep
  refine ⟨rng, h1, h2, fun k l pos => ⟨_, uses_systematic rng .cpu k l pos, rfl⟩,
    ⟨fun k _ => rng.uniform0 k, fun k _ u => u + rng.uniform0 k, fun x x' _ => .fin (-(x' - x) ^ 2)⟩,
    h1.uniform0.measurable, fun u => ⟨?_, ?_, fun _ _ => trivial⟩, fun _ _ _ => trivial, fun _ _ _ _ => rfl, ?_⟩
  · exact (h1.uniform0.measurable.comp measurable_fst).const_add u
  · exact Fl.measurable_fin.comp ((measurable_snd.sub measurable_fst).pow_const 2).neg
  · intro h
    have := Fl.fin.inj h
    norm_num at this

/-! ### In general the filter is inconsistent -/

/-- The proportion of pairs of equal entries. -/
def pairRate {n : ℕ} (x : Fin n → Bool) : ℝ := (∑ i, ∑ j, if x j = x i then 1 else 0) / n ^ 2

section

variable [MeasurableSpace K] {rng : Rng K} {P : Measure K} (h : IdealRng rng P)

include h

/-- **C108** (witness). The evidence of one step of the frozen coin (`frozenCoin`: the initial state is a fair coin, it
never changes, and the potential is one if it has not changed) is `1`. For every number of particles, with a resampling
function that keeps equally weighted particles (systematic, killing), the expectation of the marginal particle filter's
estimate is `1/2 + 1/(2N)`: more particles make it worse, and it tends to `1/2`. -/
theorem marginal_filter_inconsistent [NeZero N] {R : Resampler K N Bool} {I : K → (Fin N → Fl) → Fin N → Fin N}
    (hR : Uses R I zeroLogits) (hK : KeepsEqual P I zeroLogits) (dummy : Bool) :
    ∃ S : K → ℕ → MPFState K Bool Unit N,
      (∀ k, (filter rng.toPrng (marginalParticleFilter rng.toPrng (frozenCoin rng) dummy N R)
        [(), ()] false (some k)).result = .ok [.ok (S k 0), .ok (S k 1)]) ∧
      ∫⁻ k, ENNReal.ofReal (S k 1).logZ.lik ∂P = ENNReal.ofReal (1 / 2 + 1 / (2 * N)) ∧
      fkExp ((frozenCoin rng).init P ()) [(frozenCoin rng).step P ()] (fun _ => 1) = 1 := by
  have := h.prob
  have hN : (0 : ℝ) < N := by exact_mod_cast NeZero.pos N
  have hrun : ∀ k, ∃ s0 s1 : MPFState K Bool Unit N,
      (filter rng.toPrng (marginalParticleFilter rng.toPrng (frozenCoin rng) dummy N R)
        [(), ()] false (some k)).result = .ok [.ok s0, .ok s1] ∧
      ((∀ m, I (rng.nth (rng.nth k 2 0) (N + 1) 0) (fun _ => 0) m = m) →
        s1.logZ.lik = pairRate fun i : Fin N => coin rng (rng.nth (rng.nth k 2 0) N i)) := by
    intro k
    obtain ⟨states, h1, h2, h3, h4⟩ := marginal_run rng.toPrng (frozenCoin rng) dummy R () [()] k
    obtain ⟨s, hs⟩ : ∃ s : MPFState K Bool Unit N, s = ⟨rng.nth k 2 0, fun i => coin rng (rng.nth (rng.nth k 2 0) N i),
      fun _ => 0, (), 0⟩ := ⟨_, rfl⟩
    have h5 : marginalInitPrepare rng.toPrng (frozenCoin rng) N () (some (rng.nth k 2 0)) = .ok s := by
      rw [hs]
      unfold marginalInitPrepare
      simp only
      rw [logsumexp_zero, log_natCast, Fl.fin_sub, sub_self]
      rfl
    have h6 : states[0]? = some (.ok s) := h3.trans (congrArg some h5)
    have h7 := h4 0 (by simp) _ h6
    have hr := hR (rng.nth s.key (N + 1) 0) s.logWeights s.particles
    have h8 := marginalFilterCombine_eq (mdl := frozenCoin rng) (s2 := ⟨rng.nth k 2 1, fun _ => dummy, fun _ => 0, (), 0⟩)
      hr rfl rfl
    obtain ⟨s', hs'⟩ : ∃ s', .ok s' = marginalFilterCombine rng.toPrng (frozenCoin rng) R s
      ⟨rng.nth k 2 1, fun _ => dummy, fun _ => 0, (), 0⟩ := ⟨_, h8.symm⟩
    refine ⟨s, s', ?_, fun hid => ?_⟩
    · rw [h1]
      congr 1
      refine List.ext_getElem? fun t => ?_
      match t with
      | 0 => exact h6
      | 1 => exact h7.trans (congrArg some hs'.symm)
      | t + 2 => rw [List.getElem?_eq_none (by simp [h2])]; rfl
    · obtain ⟨x, hx⟩ : ∃ x : Fin N → Bool, x = fun i => coin rng (rng.nth (rng.nth k 2 0) N i) := ⟨_, rfl⟩
      have hsx : s.particles = x := by rw [hs, hx]
      have hsw : s.logWeights = fun _ => 0 := by rw [hs]
      have hsz : s.logZ = 0 := by rw [hs]
      have hsk : s.key = rng.nth k 2 0 := by rw [hs]
      rw [← hx]
      have hJ : ∀ i, I (rng.nth s.key (N + 1) 0) s.logWeights i = i := fun i => by rw [hsk, hsw]; exact hid i
      have hl : ∀ i, (Fl.logsumexp fun j => (frozenCoin rng).logPotential (s.particles j)
          ((frozenCoin rng).propagate (rng.nth s.key (N + 1) i.succ)
            (s.particles (I (rng.nth s.key (N + 1) 0) s.logWeights i)) ()) () +
            (s.logWeights j - Fl.logsumexp s.logWeights)) =
          Fl.log (Fl.fin ((∑ j, if x j = x i then 1 else 0) / N)) := by
        intro i
        have h9 : IsLogits s.logWeights := by rw [hsw]; exact isLogits_zero
        have h10 : ∀ j, (frozenCoin rng).logPotential (s.particles j)
          ((frozenCoin rng).propagate (rng.nth s.key (N + 1) i.succ)
            (s.particles (I (rng.nth s.key (N + 1) 0) s.logWeights i)) ()) () =
            if x j = x i then (0 : Fl) else Fl.ninf := fun j => by
          rw [hJ, hsx]
          rfl
        simp only [h10]
        rw [mixture_weight h9 fun j => by split_ifs <;> trivial]
        congr 2
        rw [Finset.sum_div]
        refine Finset.sum_congr rfl fun j _ => ?_
        rw [hsw, nw_zero]
        split_ifs <;> simp [Fl.lik]
      rw [marginalFilterCombine_eq (mdl := frozenCoin rng) (s2 := ⟨rng.nth k 2 1, fun _ => dummy, fun _ => 0, (), 0⟩)
        hr rfl (funext hl).symm] at hs'
      rw [Except.ok.inj hs']
      dsimp only
      have hpos : ∀ i, 0 < (∑ j, if x j = x i then (1 : ℝ) else 0) / N := fun i =>
        div_pos (Finset.sum_pos' (fun j _ => by split_ifs <;> norm_num) ⟨i, Finset.mem_univ i, by simp⟩) hN
      have hlog : IsLogits fun i => Fl.log (Fl.fin ((∑ j, if x j = x i then (1 : ℝ) else 0) / N)) :=
        ⟨fun i => Fl.isLog_log (hpos i).le, 0, by
          beta_reduce
          rw [Fl.log_fin _ (hpos 0)]
          trivial⟩
      have e0 : (zeroLogits (rng.nth s.key (N + 1) 0) s.logWeights : Fin N → Fl) = fun _ => 0 := rfl
      rw [e0, hsz, add_zero, logsumexp_zero, logsumexp_eq hlog, Fl.fin_sub, Fl.lik, Real.exp_sub, Real.exp_log hN,
        Real.exp_log (sum_lik_pos hlog)]
      simp only [Fl.lik_log (hpos _).le]
      rw [pairRate, ← Finset.sum_div, div_div, pow_two]
  choose s0 s1 h1 h2 using hrun
  refine ⟨fun k t => if t = 0 then s0 k else s1 k, h1, ?_, frozenCoin_evidence h⟩
  simp only [one_ne_zero, if_false]
  have hid : ∀ᵐ k ∂P, ∀ m, I (rng.nth (rng.nth k 2 0) (N + 1) 0) (fun _ => 0) m = m :=
    ((h.measurePreserving_nth (N + 1) 0).comp (h.measurePreserving_nth 2 0)).quasiMeasurePreserving.ae
      (hK.mono fun k hk m => (hk m).1)
  rw [lintegral_congr_ae (hid.mono fun k hk => by rw [h2 k hk])]
  have hc := measurable_coin h
  have hm : ∀ i j : Fin N, Measurable fun ks : Fin N → K => (if coin rng (ks j) = coin rng (ks i) then 1 else 0 : ℝ≥0∞) := by
    intro i j
    have h3 : Measurable fun q : Bool × Bool => (if q.1 = q.2 then 1 else 0 : ℝ≥0∞) := measurable_of_finite _
    exact h3.comp ((hc.comp (measurable_pi_apply j)).prodMk (hc.comp (measurable_pi_apply i)))
  have e : ∀ ks : Fin N → K, ENNReal.ofReal (pairRate fun i => coin rng (ks i)) =
      (∑ i, ∑ j, if coin rng (ks j) = coin rng (ks i) then 1 else 0 : ℝ≥0∞) * ENNReal.ofReal (1 / (N : ℝ) ^ 2) := fun ks => by
    rw [pairRate, div_eq_mul_one_div, ENNReal.ofReal_mul (Finset.sum_nonneg fun i _ => Finset.sum_nonneg fun j _ => by
      split_ifs <;> norm_num), ENNReal.ofReal_sum_of_nonneg fun i _ => Finset.sum_nonneg fun j _ => by split_ifs <;> norm_num]
    congr 1
    refine Finset.sum_congr rfl fun i _ => ?_
    rw [ENNReal.ofReal_sum_of_nonneg fun j _ => by split_ifs <;> norm_num]
    refine Finset.sum_congr rfl fun j _ => ?_
    split_ifs <;> simp
  have hM : Measurable fun ks : Fin N → K => ENNReal.ofReal (pairRate fun i => coin rng (ks i)) := by
    simp only [e]
    exact (Finset.measurable_fun_sum _ fun i _ => Finset.measurable_fun_sum _ fun j _ => hm i j).mul_const _
  have h3 := ((h.split N).comp (h.measurePreserving_nth 2 0)).lintegral_comp hM
  refine h3.trans ?_
  simp only [e]
  rw [lintegral_mul_const _ (Finset.measurable_fun_sum _ fun i _ => Finset.measurable_fun_sum _ fun j _ => hm i j),
    lintegral_finsetSum _ fun i _ => Finset.measurable_fun_sum _ fun j _ => hm i j]
  simp only [lintegral_finsetSum _ fun j _ => hm _ j]
  have hpair : ∀ i j : Fin N, ∫⁻ ks : Fin N → K, (if coin rng (ks j) = coin rng (ks i) then 1 else 0 : ℝ≥0∞)
      ∂(Measure.pi fun _ => P) = ENNReal.ofReal (1 / 2 + if j = i then 1 / 2 else 0) := by
    intro i j
    by_cases hij : j = i
    · subst hij
      norm_num
    · rw [if_neg hij, add_zero]
      have h5 : Measurable fun q : K × K => (if coin rng q.1 = coin rng q.2 then 1 else 0 : ℝ≥0∞) := by
        have h3 : Measurable fun q : Bool × Bool => (if q.1 = q.2 then 1 else 0 : ℝ≥0∞) := measurable_of_finite _
        exact h3.comp ((hc.comp measurable_fst).prodMk (hc.comp measurable_snd))
      rw [(measurePreserving_pair P hij).lintegral_comp h5, lintegral_prod _ h5.aemeasurable]
      simp only [coin_law h]
      rw [lintegral_const, measure_univ, mul_one, one_div, ENNReal.ofReal_inv_of_pos (by norm_num)]
      simp
  simp only [hpair]
  have hs : ∀ i : Fin N, ∑ j : Fin N, ENNReal.ofReal (1 / 2 + if j = i then 1 / 2 else 0) =
      ENNReal.ofReal (N / 2 + 1 / 2) := fun i => by
    rw [← ENNReal.ofReal_sum_of_nonneg fun j _ => by split_ifs <;> norm_num]
    congr 1
    rw [Finset.sum_add_distrib]
    simp
    ring
  simp only [hs]
  rw [Finset.sum_const, Finset.card_univ, Fintype.card_fin, nsmul_eq_mul, ← ENNReal.ofReal_natCast,
    ← ENNReal.ofReal_mul hN.le, ← ENNReal.ofReal_mul (by positivity)]
  congr 1
  field_simp

end

/-- Ideal generators and suitable resampling functions exist. -/
example : ∃ rng : Rng Key, IdealRng rng keyLaw ∧
    Uses (X := Bool) (systematic (N := 7) rng .cpu) (fun k l => systematicIdx rng .cpu l 7 k) zeroLogits ∧
    KeepsEqual keyLaw (fun k (l : Fin 7 → Fl) => systematicIdx rng .cpu l 7 k) zeroLogits :=
  let ⟨rng, h, _⟩ := exists_ideal_prefix
  ⟨rng, h, uses_systematic rng .cpu, keepsEqual_systematic h .cpu⟩

end

end Cuthbert.SMC
