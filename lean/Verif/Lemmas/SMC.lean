import Verif.Spec.SMC
import Verif.Lemmas.ConditionalLaw
import Verif.Lemmas.ResamplingLaw

/-!
# Lemmas about particle filters
-/

namespace Cuthbert
open MeasureTheory Set
open scoped ENNReal

noncomputable section

namespace Fl

theorem IsLog.add {a b : Fl} (ha : a.IsLog) (hb : b.IsLog) : (a + b).IsLog := by
  cases a <;> cases b <;> first | exact ha.elim | exact hb.elim | trivial

theorem lik_add {a b : Fl} (ha : a.IsLog) (hb : b.IsLog) : (a + b).lik = a.lik * b.lik := by
  cases a <;> cases b <;>
    first
      | exact ha.elim
      | exact hb.elim
      | simp [lik, add_def, Fl.add, Real.exp_add]

theorem IsLog.sub_fin {a : Fl} (ha : a.IsLog) (r : ℝ) : (a - fin r).IsLog := by
  cases a <;> first | exact ha.elim | trivial

theorem lik_sub_fin {a : Fl} (ha : a.IsLog) (r : ℝ) : (a - fin r).lik = a.lik / Real.exp r := by
  cases a <;> first | exact ha.elim | simp [lik, Real.exp_sub]

theorem logsumexp_isLog {ι : Type*} [Fintype ι] {l : ι → Fl} (h : ∀ i, (l i).IsLog) :
    logsumexp l = log (fin (∑ i, (l i).lik)) := by
  unfold logsumexp
  rw [← sum_fin]
  simp only [exp_of_isLog (h _)]

theorem IsLog.cases {a : Fl} (h : a.IsLog) : a = ninf ∨ a.IsFin := by
  cases a <;> first | exact h.elim | exact Or.inl rfl | exact Or.inr trivial

theorem IsFin.isLog {a : Fl} (h : a.IsFin) : a.IsLog := by
  cases a <;> first | exact h.elim | trivial

theorem IsFin.add {a b : Fl} (ha : a.IsFin) (hb : b.IsFin) : (a + b).IsFin := by
  cases a <;> cases b <;> first | exact ha.elim | exact hb.elim | trivial

end Fl

namespace SMC
open Resampling

variable {K X Inp : Type} {N : ℕ}

/-- The part of a state that matters for estimates: particles, log-weights and log normalising
constant. -/
abbrev Core (X : Type) (N : ℕ) := (Fin N → X) × (Fin N → Fl) × Fl

/-- One step of the filter for the keys `ks`. -/
def coreStep (mdl : FKModel K X Inp) (I : K → (Fin N → Fl) → Fin N → Fin N)
    (L : K → (Fin N → Fl) → Fin N → Fl) (u : Inp) (ks : Fin (N + 1) → K) (c : Core X N) :
    Core X N :=
  let anc := fun m => c.1 (I (ks 0) c.2.1 m)
  let next := fun m : Fin N => mdl.propagate (ks m.succ) (anc m) u
  let lw := fun m => mdl.logPotential (anc m) (next m) u + L (ks 0) c.2.1 m
  (next, lw, Fl.logsumexp lw - Fl.logsumexp (L (ks 0) c.2.1) + c.2.2)

/-- The estimate of the unnormalised expectation of `f`. -/
def est (f : X → ℝ≥0∞) (c : Core X N) : ℝ≥0∞ :=
  ENNReal.ofReal c.2.2.lik * ∑ i, ENNReal.ofReal (nw c.2.1 i) * f (c.1 i)

/-- No `nan` or `+∞`, and some particle is alive unless the normalising constant is zero (which is
allowed if `d`). -/
structure Good (d : Prop) (c : Core X N) : Prop where
  weights : ∀ i, (c.2.1 i).IsLog
  logZ : c.2.2.IsLog
  alive : IsLogits c.2.1 ∨ (d ∧ c.2.2 = Fl.ninf)

theorem all_ninf_of_not_isLogits {l : Fin N → Fl} (h : ∀ i, (l i).IsLog) (h' : ¬ IsLogits l) (i : Fin N) :
    l i = Fl.ninf := by
  rcases (h i).cases with h1 | h1
  · exact h1
  · exact absurd ⟨h, i, h1⟩ h'

section step

variable {mdl : FKModel K X Inp} {I : K → (Fin N → Fl) → Fin N → Fin N}
  {L : K → (Fin N → Fl) → Fin N → Fl} {u : Inp}

theorem Good.isLogits_L {c : Core X N} (hc : Good (RevivesDead L) c)
    (hL : ∀ k l, IsLogits l → IsLogits (L k l)) (k : K) : IsLogits (L k c.2.1) := by
  by_cases h : IsLogits c.2.1
  · exact hL k _ h
  · rcases hc.alive with h1 | h1
    · exact absurd h1 h
    · exact h1.1 k _ fun i => all_ninf_of_not_isLogits hc.weights h i

/-- The weight of particle `m` after a step, in terms of the resampled weights. -/
theorem step_weight {lp l : Fin N → Fl} (hlp : ∀ m, (lp m).IsLog) (hl : IsLogits l) {z : Fl} (hz : z.IsLog)
    (m : Fin N) :
    (Fl.logsumexp (fun m => lp m + l m) - Fl.logsumexp l + z).lik * nw (fun m => lp m + l m) m =
      z.lik * (nw l m * (lp m).lik) := by
  have h1 : ∀ m, (lp m + l m).IsLog := fun m => (hlp m).add (hl.1 m)
  have hs := sum_lik_pos hl
  rw [logsumexp_eq hl, Fl.logsumexp_isLog h1]
  have h0 : 0 ≤ ∑ m, (lp m + l m).lik := Finset.sum_nonneg fun m _ => Fl.lik_nonneg _
  have h2 := Fl.isLog_log h0
  rw [Fl.lik_add (h2.sub_fin _) hz, Fl.lik_sub_fin h2, Fl.lik_log h0, Real.exp_log hs]
  unfold nw
  rcases h0.eq_or_lt with h3 | h3
  · have h4 : (lp m + l m).lik = 0 := by
      have := (Finset.sum_eq_zero_iff_of_nonneg fun m _ => Fl.lik_nonneg (lp m + l m)).mp h3.symm
      exact this m (Finset.mem_univ m)
    rw [Fl.lik_add (hlp m) (hl.1 m)] at h4
    rw [← h3]
    simp only [zero_div, zero_mul]
    rw [show (l m).lik / (∑ j, (l j).lik) * (lp m).lik = (lp m).lik * (l m).lik / ∑ j, (l j).lik by ring,
      h4]
    simp
  · rw [Fl.lik_add (hlp m) (hl.1 m)]
    field_simp

theorem est_coreStep (hu : ∀ x x', (mdl.logPotential x x' u).IsLog) (f : X → ℝ≥0∞)
    (ks : Fin (N + 1) → K) {c : Core X N} (hz : c.2.2.IsLog) (hl : IsLogits (L (ks 0) c.2.1)) :
    est f (coreStep mdl I L u ks c) = ENNReal.ofReal c.2.2.lik * ∑ m : Fin N,
      ENNReal.ofReal (nw (L (ks 0) c.2.1) m) *
        (ENNReal.ofReal (mdl.logPotential (c.1 (I (ks 0) c.2.1 m))
            (mdl.propagate (ks m.succ) (c.1 (I (ks 0) c.2.1 m)) u) u).lik *
          f (mdl.propagate (ks m.succ) (c.1 (I (ks 0) c.2.1 m)) u)) := by
  unfold est coreStep
  simp only [Finset.mul_sum]
  refine Finset.sum_congr rfl fun m _ => ?_
  rw [← mul_assoc, ← mul_assoc, ← mul_assoc, ← ENNReal.ofReal_mul (Fl.lik_nonneg _), ← ENNReal.ofReal_mul (Fl.lik_nonneg _),
    ← ENNReal.ofReal_mul (mul_nonneg (Fl.lik_nonneg _) (nw_nonneg _ _)), mul_assoc (Fl.lik c.2.2)]
  congr 2
  exact step_weight (fun m => hu _ _) hl hz m

theorem Good.step {d : Prop} {c : Core X N} (hz : c.2.2.IsLog)
    (hu : ∀ x x', (mdl.logPotential x x' u).IsLog) (ks : Fin (N + 1) → K)
    (hl : IsLogits (L (ks 0) c.2.1)) (hd : d ∨ ∀ x x', (mdl.logPotential x x' u).IsFin) :
    Good d (coreStep mdl I L u ks c) := by
  have h1 : ∀ m, ((coreStep mdl I L u ks c).2.1 m).IsLog := fun m => (hu _ _).add (hl.1 m)
  have h0 : 0 ≤ ∑ m, ((coreStep mdl I L u ks c).2.1 m).lik :=
    Finset.sum_nonneg fun m _ => Fl.lik_nonneg _
  have h2 := Fl.isLog_log h0
  have h3 : (coreStep mdl I L u ks c).2.2 =
      Fl.log (Fl.fin (∑ m, ((coreStep mdl I L u ks c).2.1 m).lik)) -
        Fl.fin (Real.log (∑ j, (L (ks 0) c.2.1 j).lik)) + c.2.2 := by
    rw [← Fl.logsumexp_isLog h1, ← logsumexp_eq hl]
    rfl
  refine ⟨h1, ?_, ?_⟩
  · rw [h3]
    exact (h2.sub_fin _).add hz
  · by_cases h4 : IsLogits (coreStep mdl I L u ks c).2.1
    · exact Or.inl h4
    right
    have h5 := all_ninf_of_not_isLogits h1 h4
    refine ⟨?_, ?_⟩
    · rcases hd with hd | hd
      · exact hd
      · obtain ⟨i, hi⟩ := hl.2
        have h6 : ((coreStep mdl I L u ks c).2.1 i).IsFin := (hd _ _).add hi
        rw [h5 i] at h6
        exact h6.elim
    · rw [h3]
      simp only [h5, Fl.lik, Finset.sum_const_zero, Fl.log_zero, Fl.ninf_sub_fin]
      generalize c.2.2 = z at hz
      cases z <;> first | exact hz.elim | rfl

end step

section law

variable [MeasurableSpace K] [MeasurableSpace X] {P : Measure K} [IsProbabilityMeasure P]
  {mdl : FKModel K X Inp} {I : K → (Fin N → Fl) → Fin N → Fin N}
  {L : K → (Fin N → Fl) → Fin N → Fl} {u : Inp}

/-- The weighted transition applied to `f`. -/
def fkQ (P : Measure K) (mdl : FKModel K X Inp) (u : Inp) (f : X → ℝ≥0∞) (x : X) : ℝ≥0∞ :=
  ∫⁻ k, ENNReal.ofReal (mdl.logPotential x (mdl.propagate k x u) u).lik *
    f (mdl.propagate k x u) ∂P

theorem measurable_weighted (hu : mdl.Regular u) {f : X → ℝ≥0∞} (hf : Measurable f) :
    Measurable fun q : X × K => ENNReal.ofReal (mdl.logPotential q.1 (mdl.propagate q.2 q.1 u) u).lik *
      f (mdl.propagate q.2 q.1 u) := by
  have h1 : Measurable fun q : X × K => mdl.propagate q.2 q.1 u :=
    hu.propagate.comp (measurable_snd.prodMk measurable_fst)
  have h2 : Measurable fun q : X × K => mdl.logPotential q.1 (mdl.propagate q.2 q.1 u) u :=
    hu.logPotential.comp (measurable_fst.prodMk h1)
  exact (ENNReal.measurable_ofReal.comp (Fl.measurable_lik.comp h2)).mul (hf.comp h1)

theorem measurable_fkQ (hu : mdl.Regular u) {f : X → ℝ≥0∞} (hf : Measurable f) :
    Measurable (fkQ P mdl u f) :=
  (measurable_weighted hu hf).lintegral_prod_right'

theorem measurable_nw (m : Fin N) : Measurable fun l : Fin N → Fl => nw l m := by
  have h1 : ∀ j : Fin N, Measurable fun l : Fin N → Fl => (l j).lik := fun j =>
    Fl.measurable_lik.comp (measurable_pi_apply j)
  exact (h1 m).div (Finset.measurable_sum _ fun j _ => h1 j)

theorem measurable_est {f : X → ℝ≥0∞} (hf : Measurable f) :
    Measurable (est f : Core X N → ℝ≥0∞) := by
  have h1 : Measurable fun c : Core X N => ENNReal.ofReal c.2.2.lik :=
    ENNReal.measurable_ofReal.comp (Fl.measurable_lik.comp (measurable_snd.comp measurable_snd))
  refine h1.mul (Finset.measurable_sum _ fun i _ => ?_)
  have h2 : Measurable fun c : Core X N => ENNReal.ofReal (nw c.2.1 i) :=
    ENNReal.measurable_ofReal.comp ((measurable_nw i).comp (measurable_fst.comp measurable_snd))
  have h3 : Measurable fun c : Core X N => f (c.1 i) :=
    hf.comp ((measurable_pi_apply i).comp measurable_fst)
  exact h2.mul h3

/-- Picking an entry at a measurable index. -/
theorem measurable_pick_entry {Ω : Type*} [MeasurableSpace Ω] {x : Ω → Fin N → X} {i : Ω → Fin N} (hx : Measurable x)
    (hi : Measurable i) : Measurable fun w => x w (i w) := by
  have h1 : Measurable fun q : Fin N × (Fin N → X) => q.2 q.1 :=
    measurable_from_prod_countable_right fun j => measurable_pi_apply j
  exact h1.comp (hi.prodMk hx)

omit [IsProbabilityMeasure P] in
theorem measurable_coreStep (hR : UnbiasedWeights P I L) (hu : mdl.Regular u) :
    Measurable fun q : (Fin (N + 1) → K) × Core X N => coreStep mdl I L u q.1 q.2 := by
  have hk0 : Measurable fun q : (Fin (N + 1) → K) × Core X N => (q.1 0, q.2.2.1) :=
    ((measurable_pi_apply 0).comp measurable_fst).prodMk
      (measurable_fst.comp (measurable_snd.comp measurable_snd))
  have hI : Measurable fun q : (Fin (N + 1) → K) × Core X N => I (q.1 0) q.2.2.1 :=
    hR.measurable_idx.comp hk0
  have hL : Measurable fun q : (Fin (N + 1) → K) × Core X N => L (q.1 0) q.2.2.1 :=
    hR.measurable_logits.comp hk0
  have hanc : ∀ m, Measurable fun q : (Fin (N + 1) → K) × Core X N =>
      q.2.1 (I (q.1 0) q.2.2.1 m) := fun m =>
    measurable_pick_entry (measurable_fst.comp measurable_snd) ((measurable_pi_apply m).comp hI)
  have hkm : ∀ m : Fin N, Measurable fun q : (Fin (N + 1) → K) × Core X N => q.1 m.succ :=
    fun m => (measurable_pi_apply m.succ).comp measurable_fst
  have hnext : ∀ m : Fin N, Measurable fun q : (Fin (N + 1) → K) × Core X N =>
      mdl.propagate (q.1 m.succ) (q.2.1 (I (q.1 0) q.2.2.1 m)) u := fun m =>
    hu.propagate.comp ((hkm m).prodMk (hanc m))
  have hlw : Measurable fun (q : (Fin (N + 1) → K) × Core X N) (m : Fin N) =>
      mdl.logPotential (q.2.1 (I (q.1 0) q.2.2.1 m))
        (mdl.propagate (q.1 m.succ) (q.2.1 (I (q.1 0) q.2.2.1 m)) u) u + L (q.1 0) q.2.2.1 m := by
    refine measurable_pi_iff.mpr fun m => ?_
    have h1 : Measurable fun q : (Fin (N + 1) → K) × Core X N =>
        mdl.logPotential (q.2.1 (I (q.1 0) q.2.2.1 m))
        (mdl.propagate (q.1 m.succ) (q.2.1 (I (q.1 0) q.2.2.1 m)) u) u :=
      hu.logPotential.comp ((hanc m).prodMk (hnext m))
    exact Fl.measurable_add.comp (h1.prodMk ((measurable_pi_apply m).comp hL))
  have hz : Measurable fun q : (Fin (N + 1) → K) × Core X N => q.2.2.2 :=
    measurable_snd.comp (measurable_snd.comp measurable_snd)
  have hZ := Fl.measurable_add.comp (((Fl.measurable_logsumexp.comp hlw).fl_sub
    (Fl.measurable_logsumexp.comp hL)).prodMk hz)
  exact (measurable_pi_iff.mpr hnext).prodMk (hlw.prodMk hZ)

/-- The expectation of the estimate after one step with fresh keys. -/
theorem lintegral_coreStep (hR : UnbiasedWeights P I L) (hu : mdl.Regular u) {f : X → ℝ≥0∞}
    (hf : Measurable f) {c : Core X N} (hc : Good (RevivesDead L) c) :
    ∫⁻ ks, est f (coreStep mdl I L u ks c) ∂(Measure.pi fun _ => P) = est (fkQ P mdl u f) c := by
  simp only [est_coreStep hu.isLog f _ hc.logZ (hc.isLogits_L hR.isLogits _)]
  have hw := measurable_weighted hu hf
  -- the summand as a function of the keys
  have hidx : Measurable fun k => I k c.2.1 :=
    hR.measurable_idx.comp (measurable_id.prodMk measurable_const)
  have hlog : Measurable fun k => L k c.2.1 :=
    hR.measurable_logits.comp (measurable_id.prodMk measurable_const)
  have hanc : ∀ m, Measurable fun k => c.1 (I k c.2.1 m) := fun m =>
    (measurable_of_finite c.1).comp ((measurable_pi_apply m).comp hidx)
  have hnw : ∀ m, Measurable fun k => ENNReal.ofReal (nw (L k c.2.1) m) := fun m =>
    ENNReal.measurable_ofReal.comp ((measurable_nw m).comp hlog)
  have hterm : ∀ m : Fin N, Measurable fun ks : Fin (N + 1) → K =>
      ENNReal.ofReal (nw (L (ks 0) c.2.1) m) *
        (ENNReal.ofReal (mdl.logPotential (c.1 (I (ks 0) c.2.1 m))
            (mdl.propagate (ks m.succ) (c.1 (I (ks 0) c.2.1 m)) u) u).lik *
          f (mdl.propagate (ks m.succ) (c.1 (I (ks 0) c.2.1 m)) u)) := by
    intro m
    have h1 : Measurable fun ks : Fin (N + 1) → K => (c.1 (I (ks 0) c.2.1 m), ks m.succ) :=
      ((hanc m).comp (measurable_pi_apply 0)).prodMk (measurable_pi_apply m.succ)
    exact ((hnw m).comp (measurable_pi_apply 0)).mul (hw.comp h1)
  rw [lintegral_const_mul _ (Finset.measurable_sum _ fun m _ => hterm m),
    lintegral_finsetSum' _ fun m _ => (hterm m).aemeasurable]
  unfold est
  rcases hc.alive with hl | hl
  swap
  · simp [hl.2, Fl.lik]
  congr 1
  -- one slot
  have h1 : ∀ m : Fin N, ∫⁻ ks, ENNReal.ofReal (nw (L (ks 0) c.2.1) m) *
        (ENNReal.ofReal (mdl.logPotential (c.1 (I (ks 0) c.2.1 m))
            (mdl.propagate (ks m.succ) (c.1 (I (ks 0) c.2.1 m)) u) u).lik *
          f (mdl.propagate (ks m.succ) (c.1 (I (ks 0) c.2.1 m)) u)) ∂(Measure.pi fun _ => P) =
      ∫⁻ k, ENNReal.ofReal (nw (L k c.2.1) m) * fkQ P mdl u f (c.1 (I k c.2.1 m)) ∂P := by
    intro m
    rw [lintegral_pi_cons P (hterm m)]
    refine lintegral_congr fun k => ?_
    simp only [Fin.cons_zero, Fin.cons_succ]
    have h2 : Measurable fun k' => ENNReal.ofReal (mdl.logPotential (c.1 (I k c.2.1 m))
            (mdl.propagate k' (c.1 (I k c.2.1 m)) u) u).lik *
          f (mdl.propagate k' (c.1 (I k c.2.1 m)) u) :=
      hw.comp (measurable_const.prodMk measurable_id)
    have h2' : Measurable fun y : Fin N → K =>
        ENNReal.ofReal (mdl.logPotential (c.1 (I k c.2.1 m))
            (mdl.propagate (y m) (c.1 (I k c.2.1 m)) u) u).lik *
          f (mdl.propagate (y m) (c.1 (I k c.2.1 m)) u) :=
      Measurable.comp (f := fun y : Fin N → K => y m) h2 (measurable_pi_apply m)
    rw [lintegral_const_mul _ h2',
      (measurePreserving_eval (fun _ : Fin N => P) m).lintegral_comp h2]
    rfl
  simp only [h1]
  -- sum over the ancestors
  have h3 : ∀ m k, ENNReal.ofReal (nw (L k c.2.1) m) * fkQ P mdl u f (c.1 (I k c.2.1 m)) =
      ∑ i, ENNReal.ofReal (nw (L k c.2.1) m) * (if I k c.2.1 m = i then 1 else 0) *
        fkQ P mdl u f (c.1 i) := by
    intro m k
    rw [Finset.sum_eq_single (I k c.2.1 m)]
    · simp
    · intro i _ hi
      rw [if_neg fun h => hi h.symm, mul_zero, zero_mul]
    · simp
  have hind : ∀ m i, Measurable fun k => ENNReal.ofReal (nw (L k c.2.1) m) *
      (if I k c.2.1 m = i then (1 : ℝ≥0∞) else 0) := by
    intro m i
    have h4 : Measurable fun j : Fin N => if j = i then (1 : ℝ≥0∞) else 0 := measurable_of_finite _
    exact (hnw m).mul (h4.comp ((measurable_pi_apply m).comp hidx))
  simp only [h3]
  rw [← lintegral_finsetSum' _ fun m _ => (Finset.measurable_sum _ fun i _ =>
    (hind m i).mul_const _).aemeasurable]
  have h5 : ∀ k, ∑ m, ∑ i, ENNReal.ofReal (nw (L k c.2.1) m) * (if I k c.2.1 m = i then 1 else 0) *
        fkQ P mdl u f (c.1 i) = ∑ i, (∑ m, ENNReal.ofReal (nw (L k c.2.1) m) *
        (if I k c.2.1 m = i then 1 else 0)) * fkQ P mdl u f (c.1 i) := by
    intro k
    rw [Finset.sum_comm]
    simp only [Finset.sum_mul]
  simp only [h5]
  have hsum : ∀ i, Measurable fun k => ∑ m, ENNReal.ofReal (nw (L k c.2.1) m) *
      (if I k c.2.1 m = i then (1 : ℝ≥0∞) else 0) := fun i =>
    Finset.measurable_sum _ fun m _ => hind m i
  rw [lintegral_finsetSum' _ fun i _ => ((hsum i).mul_const _).aemeasurable]
  refine Finset.sum_congr rfl fun i _ => ?_
  rw [lintegral_mul_const _ (hsum i), hR.unbiased _ hl]

/-- The state at time `t` when the filter continues from `c` with key `k`; `keys` are the keys of the
prepared states. -/
def coreAt (rng : Prng K) (mdl : FKModel K X Inp) (I : K → (Fin N → Fl) → Fin N → Fin N)
    (L : K → (Fin N → Fl) → Fin N → Fl) :
    (us : List Inp) → ℕ → K → Core X N → (Fin us.length → K) → Core X N
  | [], _, _, c, _ => c
  | _ :: _, 0, _, c, _ => c
  | u :: us, t + 1, k, c, keys =>
    coreAt rng mdl I L us t (keys 0) (coreStep mdl I L u (rng.nth k (N + 1)) c) (Fin.tail keys)

/-- The expectation of `f` at time `t` given the present state, weighted by the potentials. -/
def fkG (P : Measure K) (mdl : FKModel K X Inp) (f : X → ℝ≥0∞) : List Inp → ℕ → X → ℝ≥0∞
  | [], _ => f
  | _ :: _, 0 => f
  | u :: us, t + 1 => fkQ P mdl u (fkG P mdl f us t)

theorem measurable_fkG {f : X → ℝ≥0∞} (hf : Measurable f) : ∀ (us : List Inp) (t : ℕ),
    (∀ u ∈ us, mdl.Regular u) → Measurable (fkG P mdl f us t)
  | [], _, _ => hf
  | _ :: _, 0, _ => hf
  | u :: us, t + 1, hu => measurable_fkQ (hu u (by simp))
      (measurable_fkG hf us t fun u' h' => hu u' (by simp [h']))

theorem fkG_eq {f : X → ℝ≥0∞} (hf : Measurable f) : ∀ (us : List Inp) (t : ℕ) (x : X),
    t ≤ us.length → (∀ u ∈ us, mdl.Regular u) →
    fkG P mdl f us t x = fkPathExp ((us.take t).map (mdl.step P)) (fun p => f (p t)) x
  | [], t, x, ht, _ => by
    simp only [List.take_nil, List.map_nil, fkPathExp]
    rfl
  | _ :: _, 0, x, _, _ => by simp [fkPathExp, fkG]
  | u :: us, t + 1, x, ht, hu => by
    simp only [List.take_succ_cons, List.map_cons, fkPathExp, pathCons]
    have hu' : ∀ u' ∈ us, mdl.Regular u' := fun u' h' => hu u' (by simp [h'])
    have hur := hu u (by simp)
    have ht' : t ≤ us.length := by simpa using ht
    simp only [← fkG_eq hf us t _ ht' hu']
    have h1 : Measurable fun x' => (mdl.step P u).pot x x' * fkG P mdl f us t x' := by
      have h2 : Measurable fun x' => mdl.logPotential x x' u :=
        hur.logPotential.comp (measurable_const.prodMk measurable_id)
      exact (ENNReal.measurable_ofReal.comp (Fl.measurable_lik.comp h2)).mul
        (measurable_fkG hf us t hu')
    have h3 : Measurable fun k => mdl.propagate k x u :=
      hur.propagate.comp (measurable_id.prodMk measurable_const)
    change _ = ∫⁻ x', (mdl.step P u).pot x x' * fkG P mdl f us t x'
      ∂(P.map fun k => mdl.propagate k x u)
    rw [lintegral_map h1 h3]
    rfl

variable {rng : Rng K} (h : IdealRng rng P)

include h

omit [IsProbabilityMeasure P] in
theorem measurable_nthAll (n : ℕ) : Measurable fun k => rng.nth k n := (h.split n).measurable

omit [IsProbabilityMeasure P] in
theorem measurable_coreAt (hR : UnbiasedWeights P I L) : ∀ (us : List Inp) (t : ℕ),
    (∀ u ∈ us, mdl.Regular u) →
    Measurable fun q : K × Core X N × (Fin us.length → K) =>
      coreAt rng.toPrng mdl I L us t q.1 q.2.1 q.2.2
  | [], _, _ => measurable_fst.comp measurable_snd
  | _ :: _, 0, _ => measurable_fst.comp measurable_snd
  | u :: us, t + 1, hu => by
    have hur := hu u (by simp)
    have ih := measurable_coreAt hR us t fun u' h' => hu u' (by simp [h'])
    have h1 : Measurable fun q : K × Core X N × (Fin (us.length + 1) → K) =>
        coreStep mdl I L u (rng.nth q.1 (N + 1)) q.2.1 :=
      (measurable_coreStep hR hur).comp (((measurable_nthAll h (N + 1)).comp measurable_fst).prodMk
        (measurable_fst.comp measurable_snd))
    have h2 : Measurable fun q : K × Core X N × (Fin (us.length + 1) → K) => q.2.2 :=
      measurable_snd.comp measurable_snd
    have h3 : Measurable fun q : K × Core X N × (Fin (us.length + 1) → K) => Fin.tail q.2.2 :=
      measurable_pi_iff.mpr fun i => (measurable_pi_apply i.succ).comp h2
    exact ih.comp (((measurable_pi_apply 0).comp h2).prodMk (h1.prodMk h3))

/-- The expectation of the estimate at time `t`, given the present state. -/
theorem lintegral_coreAt (hR : UnbiasedWeights P I L) {f : X → ℝ≥0∞} (hf : Measurable f) :
    ∀ (us : List Inp) (t : ℕ) (c : Core X N), t ≤ us.length → (∀ u ∈ us, mdl.Regular u) →
    (RevivesDead L ∨ ∀ u ∈ us, ∀ x x', (mdl.logPotential x x' u).IsFin) → Good (RevivesDead L) c →
    ∫⁻ k, ∫⁻ keys, est f (coreAt rng.toPrng mdl I L us t k c keys) ∂(Measure.pi fun _ => P) ∂P =
      est (fkG P mdl f us t) c
  | [], t, c, _, _, _, _ => by simp [coreAt, fkG]
  | _ :: _, 0, c, _, _, _, _ => by simp [coreAt, fkG]
  | u :: us, t + 1, c, ht, hu, hd, hc => by
    have hur := hu u (by simp)
    have hu' : ∀ u' ∈ us, mdl.Regular u' := fun u' h' => hu u' (by simp [h'])
    have hd' : RevivesDead L ∨ ∀ u ∈ us, ∀ x x', (mdl.logPotential x x' u).IsFin :=
      hd.imp_right fun h1 u' h' => h1 u' (by simp [h'])
    have ht' : t ≤ us.length := by simpa using ht
    have hd0 : RevivesDead L ∨ ∀ x x', (mdl.logPotential x x' u).IsFin :=
      hd.imp_right fun h1 => h1 u (by simp)
    simp only [coreAt, fkG]
    have h1 : ∀ k, ∫⁻ keys : Fin (us.length + 1) → K, est f (coreAt rng.toPrng mdl I L us t (keys 0)
          (coreStep mdl I L u (rng.nth k (N + 1)) c) (Fin.tail keys)) ∂(Measure.pi fun _ => P) =
        est (fkG P mdl f us t) (coreStep mdl I L u (rng.nth k (N + 1)) c) := by
      intro k
      have hg : Good (RevivesDead L) (coreStep mdl I L u (rng.nth k (N + 1)) c) :=
        Good.step hc.logZ hur.isLog _ (hc.isLogits_L hR.isLogits _) hd0
      rw [← lintegral_coreAt hR hf us t _ ht' hu' hd' hg, lintegral_pi_cons P]
      · simp only [Fin.cons_zero, Fin.tail_cons]
      · have h2 : Measurable fun keys : Fin (us.length + 1) → K => Fin.tail keys :=
          measurable_pi_iff.mpr fun i => measurable_pi_apply i.succ
        exact (measurable_est hf).comp ((measurable_coreAt h hR us t hu').comp
          ((measurable_pi_apply 0).prodMk (measurable_const.prodMk h2)))
    have h3 : Measurable fun ks => est (fkG P mdl f us t) (coreStep mdl I L u ks c) :=
      (measurable_est (measurable_fkG hf us t hu')).comp ((measurable_coreStep hR hur).comp
        (measurable_id.prodMk measurable_const))
    refine (lintegral_congr h1).trans ?_
    rw [(h.split (N + 1)).lintegral_comp h3,
      lintegral_coreStep hR hur (measurable_fkG hf us t hu') hc]

/-! ### The initial particles -/

omit h [MeasurableSpace K] [MeasurableSpace X] [IsProbabilityMeasure P] in
/-- The initial state for the keys `a`. -/
def coreInit (mdl : FKModel K X Inp) (u0 : Inp) (a : Fin N → K) : Core X N :=
  (fun i => mdl.initSample (a i) u0, fun _ => 0, 0)

omit h [MeasurableSpace K] [MeasurableSpace X] [IsProbabilityMeasure P] in
theorem good_coreInit [NeZero N] {d : Prop} (u0 : Inp) (a : Fin N → K) :
    Good d (coreInit mdl u0 a) :=
  ⟨fun _ => trivial, trivial, Or.inl isLogits_zero⟩

omit h [IsProbabilityMeasure P] in
theorem measurable_coreInit {u0 : Inp} (h0 : Measurable fun k => mdl.initSample k u0) :
    Measurable (coreInit mdl u0 : (Fin N → K) → Core X N) :=
  (measurable_pi_iff.mpr fun i => h0.comp (measurable_pi_apply i)).prodMk measurable_const

omit h in
theorem lintegral_coreInit [NeZero N] {u0 : Inp} (h0 : Measurable fun k => mdl.initSample k u0)
    {f : X → ℝ≥0∞} (hf : Measurable f) :
    ∫⁻ a, est f (coreInit mdl u0 a : Core X N) ∂(Measure.pi fun _ => P) =
      ∫⁻ x, f x ∂mdl.init P u0 := by
  have hm : ∀ i : Fin N, Measurable fun a : Fin N → K => f (mdl.initSample (a i) u0) := fun i =>
    (hf.comp h0).comp (measurable_pi_apply i)
  simp only [est, coreInit, Fl.zero_def, Fl.lik, Real.exp_zero, ENNReal.ofReal_one, one_mul]
  rw [lintegral_finsetSum' _ fun i _ => ((hm i).const_mul _).aemeasurable]
  have h1 : ∀ i : Fin N, ∫⁻ a : Fin N → K, ENNReal.ofReal (nw (fun _ : Fin N => Fl.fin 0) i) *
      f (mdl.initSample (a i) u0) ∂(Measure.pi fun _ => P) =
      ENNReal.ofReal (N : ℝ)⁻¹ * ∫⁻ x, f x ∂mdl.init P u0 := by
    intro i
    rw [lintegral_const_mul _ (hm i), FKModel.init, lintegral_map hf h0,
      (measurePreserving_eval (fun _ : Fin N => P) i).lintegral_comp
        (f := fun k => f (mdl.initSample k u0)) (hf.comp h0)]
    congr 2
    exact nw_zero i
  simp only [h1]
  rw [Finset.sum_const, Finset.card_univ, Fintype.card_fin, nsmul_eq_mul, ← mul_assoc,
    ENNReal.ofReal_inv_of_pos (by exact_mod_cast NeZero.pos N), ENNReal.ofReal_natCast,
    ENNReal.mul_inv_cancel (by exact_mod_cast NeZero.ne N) (by simp), one_mul]

/-- The inner expectation of a run whose first key is `k`. -/
theorem lintegral_coreAt_succ (hR : UnbiasedWeights P I L) {f : X → ℝ≥0∞} (hf : Measurable f) (u : Inp)
    (us : List Inp) (t : ℕ) (c : Core X N) (k : K) (ht : t ≤ us.length)
    (hu : ∀ u' ∈ u :: us, mdl.Regular u')
    (hd : RevivesDead L ∨ ∀ u' ∈ u :: us, ∀ x x', (mdl.logPotential x x' u').IsFin)
    (hc : Good (RevivesDead L) c) :
    ∫⁻ keys, est f (coreAt rng.toPrng mdl I L (u :: us) (t + 1) k c keys)
        ∂(Measure.pi fun _ : Fin (u :: us).length => P) =
      est (fkG P mdl f us t) (coreStep mdl I L u (rng.nth k (N + 1)) c) := by
  have hur := hu u (by simp)
  have hu' : ∀ u' ∈ us, mdl.Regular u' := fun u' h' => hu u' (by simp [h'])
  have hd' : RevivesDead L ∨ ∀ u ∈ us, ∀ x x', (mdl.logPotential x x' u).IsFin :=
    hd.imp_right fun h1 u' h' => h1 u' (by simp [h'])
  have hd0 : RevivesDead L ∨ ∀ x x', (mdl.logPotential x x' u).IsFin :=
    hd.imp_right fun h1 => h1 u (by simp)
  have hg : Good (RevivesDead L) (coreStep mdl I L u (rng.nth k (N + 1)) c) :=
    Good.step hc.logZ hur.isLog _ (hc.isLogits_L hR.isLogits _) hd0
  rw [← lintegral_coreAt h hR hf us t _ ht hu' hd' hg]
  refine (lintegral_pi_cons (n := us.length) P ?_).trans ?_
  · have h2 : Measurable fun keys : Fin (us.length + 1) → K => Fin.tail keys :=
      measurable_pi_iff.mpr fun i => measurable_pi_apply i.succ
    exact (measurable_est hf).comp ((measurable_coreAt h hR us t hu').comp
      ((measurable_pi_apply 0).prodMk (measurable_const.prodMk h2)))
  · rfl

/-- The whole run, conditionally on its first key, when the rest of the run is integrated out. -/
theorem lintegral_run (hR : UnbiasedWeights P I L) {u0 : Inp}
    (h0 : Measurable fun k => mdl.initSample k u0) {f : X → ℝ≥0∞} (hf : Measurable f)
    (us : List Inp) (t : ℕ) (hu : ∀ u' ∈ us, mdl.Regular u') :
    ∫⁻ k, est f (coreAt rng.toPrng mdl I L us t (rng.nth k (us.length + 1) 0)
        (coreInit mdl u0 (rng.nth (rng.nth k (us.length + 1) 0) N))
        (Fin.tail (rng.nth k (us.length + 1)))) ∂P =
      ∫⁻ k, ∫⁻ keys, est f (coreAt rng.toPrng mdl I L us t k (coreInit mdl u0 (rng.nth k N)) keys)
        ∂(Measure.pi fun _ => P) ∂P := by
  have h2 : Measurable fun keys : Fin (us.length + 1) → K => Fin.tail keys :=
    measurable_pi_iff.mpr fun i => measurable_pi_apply i.succ
  have h3 : Measurable fun keys : Fin (us.length + 1) → K =>
      (coreInit mdl u0 (rng.nth (keys 0) N) : Core X N) :=
    (measurable_coreInit h0).comp ((measurable_nthAll h N).comp (measurable_pi_apply 0))
  have h4 : Measurable fun keys : Fin (us.length + 1) → K =>
      est f (coreAt rng.toPrng mdl I L us t (keys 0) (coreInit mdl u0 (rng.nth (keys 0) N))
        (Fin.tail keys)) :=
    (measurable_est hf).comp ((measurable_coreAt h hR us t hu).comp
      ((measurable_pi_apply 0).prodMk (h3.prodMk h2)))
  rw [(h.split (us.length + 1)).lintegral_comp h4, lintegral_pi_cons P h4]
  rfl

/-- The expectation of the estimate at time `t` of a run, if splitting a key into `N` and into `N + 1` keys gives
independent results. -/
theorem lintegral_run_indep [NeZero N] (hR : UnbiasedWeights P I L) (hind : IndepSplit rng.toPrng P) {u0 : Inp}
    (h0 : Measurable fun k => mdl.initSample k u0) {f : X → ℝ≥0∞} (hf : Measurable f)
    (us : List Inp) (t : ℕ) (ht : t ≤ us.length) (hu : ∀ u' ∈ us, mdl.Regular u')
    (hd : RevivesDead L ∨ ∀ u' ∈ us, ∀ x x', (mdl.logPotential x x' u').IsFin) :
    ∫⁻ k, ∫⁻ keys, est f (coreAt rng.toPrng mdl I L us t k (coreInit mdl u0 (rng.nth k N)) keys)
        ∂(Measure.pi fun _ => P) ∂P = ∫⁻ x, fkG P mdl f us t x ∂mdl.init P u0 := by
  have hgood : ∀ a : Fin N → K, Good (RevivesDead L) (coreInit mdl u0 a) := fun a =>
    good_coreInit u0 a
  have hzero : ∫⁻ k, est f (coreInit mdl u0 (rng.nth k N) : Core X N) ∂P =
      ∫⁻ x, f x ∂mdl.init P u0 := by
    rw [← lintegral_coreInit (N := N) h0 hf]
    exact (h.split N).lintegral_comp (f := fun a => est f (coreInit mdl u0 a : Core X N))
      ((measurable_est hf).comp (measurable_coreInit h0))
  match us, t, ht with
  | [], _, _ => simpa [coreAt, fkG] using hzero
  | _ :: _, 0, _ => simpa [coreAt, fkG] using hzero
  | u :: us, t + 1, ht =>
    have hur := hu u (by simp)
    have hu' : ∀ u' ∈ us, mdl.Regular u' := fun u' h' => hu u' (by simp [h'])
    have ht' : t ≤ us.length := by simpa using ht
    have hg := measurable_fkG (P := P) hf us t hu'
    refine (lintegral_congr fun k => lintegral_coreAt_succ h hR hf u us t
      (coreInit mdl u0 (rng.nth k N)) k ht' hu hd (hgood _)).trans ?_
    have h1 : Measurable fun q : (Fin N → K) × (Fin (N + 1) → K) =>
        est (fkG P mdl f us t) (coreStep mdl I L u q.2 (coreInit mdl u0 q.1)) :=
      (measurable_est hg).comp ((measurable_coreStep hR hur).comp (measurable_snd.prodMk
        ((measurable_coreInit h0).comp measurable_fst)))
    refine ((hind N (N + 1) (by omega)).lintegral_comp h1).trans ?_
    rw [lintegral_prod _ h1.aemeasurable]
    simp only [lintegral_coreStep hR hur hg (hgood _)]
    exact lintegral_coreInit h0 (measurable_fkQ hur hg)

/-- The same if only the pairs of an initial key and a propagation key of the same particle are
independent, provided that resampling equally weighted particles changes nothing. -/
theorem lintegral_run_pairs [NeZero N] (hR : UnbiasedWeights P I L)
    (hpair : ∀ i : Fin N, MeasurePreserving (fun k => (rng.nth k N i, rng.nth k (N + 1) i.succ)) P
      (P.prod P))
    (hid : ∀ᵐ k ∂P, ∀ m, I k (fun _ => 0) m = m ∧ nw (L k fun _ => 0) m = (N : ℝ)⁻¹) {u0 : Inp}
    (h0 : Measurable fun k => mdl.initSample k u0) {f : X → ℝ≥0∞} (hf : Measurable f)
    (us : List Inp) (t : ℕ) (ht : t ≤ us.length) (hu : ∀ u' ∈ us, mdl.Regular u')
    (hd : RevivesDead L ∨ ∀ u' ∈ us, ∀ x x', (mdl.logPotential x x' u').IsFin) :
    ∫⁻ k, ∫⁻ keys, est f (coreAt rng.toPrng mdl I L us t k (coreInit mdl u0 (rng.nth k N)) keys)
        ∂(Measure.pi fun _ => P) ∂P = ∫⁻ x, fkG P mdl f us t x ∂mdl.init P u0 := by
  have hgood : ∀ a : Fin N → K, Good (RevivesDead L) (coreInit mdl u0 a) := fun a =>
    good_coreInit u0 a
  have hzero : ∫⁻ k, est f (coreInit mdl u0 (rng.nth k N) : Core X N) ∂P =
      ∫⁻ x, f x ∂mdl.init P u0 := by
    rw [← lintegral_coreInit (N := N) h0 hf]
    exact (h.split N).lintegral_comp (f := fun a => est f (coreInit mdl u0 a : Core X N))
      ((measurable_est hf).comp (measurable_coreInit h0))
  match us, t, ht with
  | [], _, _ => simpa [coreAt, fkG] using hzero
  | _ :: _, 0, _ => simpa [coreAt, fkG] using hzero
  | u :: us, t + 1, ht =>
    have hur := hu u (by simp)
    have hu' : ∀ u' ∈ us, mdl.Regular u' := fun u' h' => hu u' (by simp [h'])
    have ht' : t ≤ us.length := by simpa using ht
    have hg := measurable_fkG (P := P) hf us t hu'
    refine (lintegral_congr fun k => lintegral_coreAt_succ h hR hf u us t
      (coreInit mdl u0 (rng.nth k N)) k ht' hu hd (hgood _)).trans ?_
    -- equal weights: every particle is its own ancestor
    have hid' : ∀ᵐ k ∂P, ∀ m, I (rng.nth k (N + 1) 0) (fun _ => 0) m = m ∧
        nw (L (rng.nth k (N + 1) 0) fun _ => 0) m = (N : ℝ)⁻¹ :=
      ((measurePreserving_eval (fun _ : Fin (N + 1) => P) 0).comp
        (h.split (N + 1))).quasiMeasurePreserving.ae hid
    have h1 : ∀ᵐ k ∂P, est (fkG P mdl f us t) (coreStep mdl I L u (rng.nth k (N + 1))
          (coreInit mdl u0 (rng.nth k N))) = ∑ m : Fin N, ENNReal.ofReal (N : ℝ)⁻¹ *
        (ENNReal.ofReal (mdl.logPotential (mdl.initSample (rng.nth k N m) u0)
            (mdl.propagate (rng.nth k (N + 1) m.succ) (mdl.initSample (rng.nth k N m) u0) u) u).lik *
          fkG P mdl f us t
            (mdl.propagate (rng.nth k (N + 1) m.succ) (mdl.initSample (rng.nth k N m) u0) u)) := by
      filter_upwards [hid'] with k hk
      rw [est_coreStep hur.isLog _ _ (hgood _).logZ ((hgood _).isLogits_L hR.isLogits _)]
      simp only [coreInit, Fl.zero_def, Fl.lik, Real.exp_zero,
        ENNReal.ofReal_one, one_mul]
      simp only [← Fl.zero_def, (hk _).1, (hk _).2]
    rw [lintegral_congr_ae h1]
    have hw := measurable_weighted hur hg
    have hq : Measurable fun q : K × K => ENNReal.ofReal (mdl.logPotential (mdl.initSample q.1 u0)
            (mdl.propagate q.2 (mdl.initSample q.1 u0) u) u).lik *
          fkG P mdl f us t (mdl.propagate q.2 (mdl.initSample q.1 u0) u) :=
      hw.comp ((h0.comp measurable_fst).prodMk measurable_snd)
    have hm : ∀ m : Fin N, Measurable fun k =>
        ENNReal.ofReal (mdl.logPotential (mdl.initSample (rng.nth k N m) u0)
            (mdl.propagate (rng.nth k (N + 1) m.succ) (mdl.initSample (rng.nth k N m) u0) u) u).lik *
          fkG P mdl f us t
            (mdl.propagate (rng.nth k (N + 1) m.succ) (mdl.initSample (rng.nth k N m) u0) u) :=
      fun m => Measurable.comp (f := fun k => (rng.nth k N m, rng.nth k (N + 1) m.succ)) hq
        (hpair m).measurable
    rw [lintegral_finsetSum' _ fun m _ => ((hm m).const_mul _).aemeasurable]
    have h2 : ∀ m : Fin N, ∫⁻ k, ENNReal.ofReal (N : ℝ)⁻¹ *
        (ENNReal.ofReal (mdl.logPotential (mdl.initSample (rng.nth k N m) u0)
            (mdl.propagate (rng.nth k (N + 1) m.succ) (mdl.initSample (rng.nth k N m) u0) u) u).lik *
          fkG P mdl f us t
            (mdl.propagate (rng.nth k (N + 1) m.succ) (mdl.initSample (rng.nth k N m) u0) u)) ∂P =
        ENNReal.ofReal (N : ℝ)⁻¹ * ∫⁻ x, fkQ P mdl u (fkG P mdl f us t) x ∂mdl.init P u0 := by
      intro m
      rw [lintegral_const_mul _ (hm m)]
      congr 1
      refine ((hpair m).lintegral_comp hq).trans ?_
      rw [lintegral_prod _ hq.aemeasurable, FKModel.init,
        lintegral_map (measurable_fkQ hur hg) h0]
      rfl
    simp only [h2]
    rw [Finset.sum_const, Finset.card_univ, Fintype.card_fin, nsmul_eq_mul, ← mul_assoc,
      ENNReal.ofReal_inv_of_pos (by exact_mod_cast NeZero.pos N), ENNReal.ofReal_natCast,
      ENNReal.mul_inv_cancel (by exact_mod_cast NeZero.ne N) (by simp), one_mul]
    rfl

end law

end SMC

end

end Cuthbert
