import Mathlib.MeasureTheory.Measure.Prod
import Mathlib.MeasureTheory.Measure.Lebesgue.Basic
import Verif.Spec.MetropolisHastings
import Verif.Props.ParticleFilter

/-!
# Metropolis-Hastings with the evidence of a particle filter samples the exact posterior (C115)
-/

namespace Cuthbert.SMC
open MeasureTheory Set Resampling Spec
open scoped ENNReal

noncomputable section

/-! ## Metropolis-Hastings leaves its target invariant -/

section mh

variable {E : Type*} [MeasurableSpace E] {μ : Measure E} {w : E → ℝ≥0∞} {q : E → E → ℝ≥0∞} {f : E → ℝ≥0∞}

theorem mul_accept {a b : ℝ≥0∞} (ha : a ≠ ∞) : a * min 1 (b / a) = min a b := by
  by_cases h0 : a = 0
  · simp [h0]
  · rw [mul_min, mul_one, ENNReal.mul_div_cancel h0 ha]

theorem measurable_accept (hw : Measurable w) (hq : Measurable fun p : E × E => q p.1 p.2) :
    Measurable fun p : E × E => accept w q p.1 p.2 :=
  measurable_const.min (((hw.comp measurable_snd).mul (hq.comp measurable_swap)).div ((hw.comp measurable_fst).mul hq))

theorem measurable_mhStep [SFinite μ] (hw : Measurable w) (hq : Measurable fun p : E × E => q p.1 p.2)
    (hf : Measurable f) : Measurable (mhStep μ w q f) := by
  have h1 := hq.mul (measurable_accept hw hq)
  exact ((h1.mul (hf.comp measurable_snd)).lintegral_prod_right').add
    ((measurable_const.sub h1.lintegral_prod_right').mul hf)

theorem lintegral_mhStep [SFinite μ] (hw : Measurable w) (hq : Measurable fun p : E × E => q p.1 p.2)
    (hw' : ∀ x, w x ≠ ∞) (hq' : ∀ x y, q x y ≠ ∞) (hq1 : ∀ x, ∫⁻ y, q x y ∂μ ≤ 1) (hf : Measurable f) :
    ∫⁻ x, w x * mhStep μ w q f x ∂μ = ∫⁻ x, w x * f x ∂μ := by
  have hA : ∀ x, ∫⁻ y, q x y * accept w q x y ∂μ ≤ 1 := fun x =>
    (lintegral_mono fun y => mul_le_of_le_one_right' (min_le_left _ _)).trans (hq1 x)
  have hm := hq.mul (measurable_accept hw hq)
  have hmx : ∀ x, Measurable fun y => q x y * accept w q x y := fun x => hm.comp measurable_prodMk_left
  have key : ∀ x y, w x * (q x y * accept w q x y) = min (w x * q x y) (w y * q y x) := fun x y => by
    rw [← mul_assoc, accept, mul_accept (ENNReal.mul_ne_top (hw' x) (hq' x y))]
  have hmin : Measurable fun p : E × E => min (w p.1 * q p.1 p.2) (w p.2 * q p.2 p.1) :=
    ((hw.comp measurable_fst).mul hq).min ((hw.comp measurable_snd).mul (hq.comp measurable_swap))
  have e1 : ∫⁻ x, w x * ∫⁻ y, q x y * accept w q x y * f y ∂μ ∂μ =
      ∫⁻ x, w x * ((∫⁻ y, q x y * accept w q x y ∂μ) * f x) ∂μ := by
    calc _ = ∫⁻ x, ∫⁻ y, min (w x * q x y) (w y * q y x) * f y ∂μ ∂μ := by
          refine lintegral_congr fun x => ?_
          have hx : Measurable fun y => q x y * accept w q x y * f y := (hmx x).mul hf
          rw [← lintegral_const_mul _ hx]
          exact lintegral_congr fun y => by rw [← key, mul_assoc, mul_assoc, mul_assoc]
      _ = ∫⁻ y, ∫⁻ x, min (w x * q x y) (w y * q y x) * f y ∂μ ∂μ :=
          lintegral_lintegral_swap (hmin.mul (hf.comp measurable_snd)).aemeasurable
      _ = _ := by
          refine lintegral_congr fun y => ?_
          have hy : Measurable fun x => min (w x * q x y) (w y * q y x) := hmin.comp measurable_prodMk_right
          rw [lintegral_mul_const _ hy, ← mul_assoc,
            ← lintegral_const_mul _ (hmx y)]
          congr 1
          exact lintegral_congr fun x => by rw [key, min_comm]
  have hi : Measurable fun x => ∫⁻ y, q x y * accept w q x y * f y ∂μ :=
    (hm.mul (hf.comp measurable_snd)).lintegral_prod_right'
  have hi' : Measurable fun x => ∫⁻ y, q x y * accept w q x y ∂μ := hm.lintegral_prod_right'
  have hwi : Measurable fun x => w x * ∫⁻ y, q x y * accept w q x y * f y ∂μ := hw.mul hi
  have hwi' : Measurable fun x => w x * ((∫⁻ y, q x y * accept w q x y ∂μ) * f x) := hw.mul (hi'.mul hf)
  simp only [mhStep, mul_add]
  rw [lintegral_add_left hwi, e1, ← lintegral_add_left hwi']
  refine lintegral_congr fun x => ?_
  rw [← mul_add, ← add_mul, add_tsub_cancel_of_le (hA x), one_mul]

theorem lintegral_mhStep_iterate [SFinite μ] (hw : Measurable w) (hq : Measurable fun p : E × E => q p.1 p.2)
    (hw' : ∀ x, w x ≠ ∞) (hq' : ∀ x y, q x y ≠ ∞) (hq1 : ∀ x, ∫⁻ y, q x y ∂μ ≤ 1) (n : ℕ) : ∀ {f : E → ℝ≥0∞},
    Measurable f → ∫⁻ x, w x * (mhStep μ w q)^[n] f x ∂μ = ∫⁻ x, w x * f x ∂μ := by
  induction n with
  | zero => intro f _; rfl
  | succ n ih =>
    intro f hf
    rw [Function.iterate_succ_apply, ih (measurable_mhStep hw hq hf), lintegral_mhStep hw hq hw' hq' hq1 hf]

end mh

/-! ## The run is a measurable function of parameter and key -/

section joint

variable {Θ K X Inp : Type} {N : ℕ}

/-- All models of a family as one model, whose particles carry the parameter. -/
def carry (mdl : Θ → FKModel K X Inp) (θ₀ : Θ) : FKModel K (Θ × X) Inp where
  initSample k u := (θ₀, (mdl θ₀).initSample k u)
  propagate k x u := (x.1, (mdl x.1).propagate k x.2 u)
  logPotential x x' u := (mdl x.1).logPotential x.2 x'.2 u

/-- Attach the parameter to the paths of a core. -/
def attach (θ : Θ) (c : Core (ℕ → X) N) : Core (ℕ → Θ × X) N := (fun i s => (θ, c.1 i s), c.2.1, c.2.2)

theorem coreStep_attach (mdl : Θ → FKModel K X Inp) (θ₀ θ : Θ) (I : K → (Fin N → Fl) → Fin N → Fin N)
    (L : K → (Fin N → Fl) → Fin N → Fl) (u : Inp) (ks : Fin (N + 1) → K) (c : Core (ℕ → X) N) :
    coreStep (pathModel (carry mdl θ₀)) I L u ks (attach θ c) = attach θ (coreStep (pathModel (mdl θ)) I L u ks c) := by
  refine Prod.ext ?_ rfl
  funext i s
  cases s <;> rfl

theorem coreAt_attach (rng : Prng K) (mdl : Θ → FKModel K X Inp) (θ₀ θ : Θ) (I : K → (Fin N → Fl) → Fin N → Fin N)
    (L : K → (Fin N → Fl) → Fin N → Fl) : ∀ (us : List Inp) (t : ℕ) (k : K) (c : Core (ℕ → X) N)
    (keys : Fin us.length → K), coreAt rng (pathModel (carry mdl θ₀)) I L us t k (attach θ c) keys =
      attach θ (coreAt rng (pathModel (mdl θ)) I L us t k c keys)
  | [], _, _, _, _ => rfl
  | _ :: _, 0, _, _, _ => rfl
  | u :: us, t + 1, k, c, keys => by
    rw [coreAt, coreStep_attach, coreAt_attach rng mdl θ₀ θ I L us t]
    rfl

variable [MeasurableSpace Θ] [MeasurableSpace K] [MeasurableSpace X]

/-- The functions of a family of models are measurable, also as functions of the parameter, and the log potential is a
number or `-∞`. -/
structure JointlyRegular (mdl : Θ → FKModel K X Inp) (u : Inp) : Prop where
  propagate : Measurable fun q : Θ × K × X => (mdl q.1).propagate q.2.1 q.2.2 u
  logPotential : Measurable fun q : Θ × X × X => (mdl q.1).logPotential q.2.1 q.2.2 u
  isLog : ∀ θ x x', ((mdl θ).logPotential x x' u).IsLog

theorem JointlyRegular.regular {mdl : Θ → FKModel K X Inp} {u : Inp} (h : JointlyRegular mdl u) (θ : Θ) :
    (mdl θ).Regular u :=
  ⟨h.propagate.comp measurable_prodMk_left, h.logPotential.comp measurable_prodMk_left, h.isLog θ⟩

theorem JointlyRegular.carry {mdl : Θ → FKModel K X Inp} {u : Inp} (h : JointlyRegular mdl u) (θ₀ : Θ) :
    (carry mdl θ₀).Regular u where
  propagate := (measurable_fst.comp measurable_snd).prodMk (h.propagate.comp
    ((measurable_fst.comp measurable_snd).prodMk (measurable_fst.prodMk (measurable_snd.comp measurable_snd))))
  logPotential := h.logPotential.comp ((measurable_fst.comp measurable_fst).prodMk
    ((measurable_snd.comp measurable_fst).prodMk (measurable_snd.comp measurable_snd)))
  isLog _ _ := h.isLog _ _ _

variable {P : Measure K} {rng : Rng K} {I : K → (Fin N → Fl) → Fin N → Fin N} {L : K → (Fin N → Fl) → Fin N → Fl}
  {mdl : Θ → FKModel K X Inp} {u0 : Inp} {us : List Inp}

/-- The core of the run on paths. -/
def pathCore (rng : Rng K) (mdl : Θ → FKModel K X Inp) (I : K → (Fin N → Fl) → Fin N → Fin N)
    (L : K → (Fin N → Fl) → Fin N → Fl) (u0 : Inp) (us : List Inp) (t : ℕ) (p : Θ × K) : Core (ℕ → X) N :=
  coreAt rng.toPrng (pathModel (mdl p.1)) I L us t (rng.nth p.2 (us.length + 1) 0)
    (coreInit (pathModel (mdl p.1)) u0 (rng.nth (rng.nth p.2 (us.length + 1) 0) N)) (Fin.tail (rng.nth p.2 (us.length + 1)))

theorem measurable_attach_pathCore [Nonempty Θ] (h : IdealRng rng P) (hR : UnbiasedWeights P I L)
    (h0 : Measurable fun q : Θ × K => (mdl q.1).initSample q.2 u0) (hu : ∀ u ∈ us, JointlyRegular mdl u) (t : ℕ) :
    Measurable fun p : Θ × K => attach p.1 (pathCore rng mdl I L u0 us t p) := by
  obtain ⟨θ₀⟩ := ‹Nonempty Θ›
  simp only [pathCore, ← coreAt_attach rng.toPrng mdl θ₀]
  have hk : Measurable fun p : Θ × K => rng.nth p.2 (us.length + 1) := (measurable_nthAll h _).comp measurable_snd
  have hk0 : Measurable fun p : Θ × K => rng.nth p.2 (us.length + 1) 0 := (measurable_pi_apply 0).comp hk
  have ht : Measurable fun p : Θ × K => Fin.tail (rng.nth p.2 (us.length + 1)) :=
    measurable_pi_iff.mpr fun i => (measurable_pi_apply i.succ).comp hk
  have hn : Measurable fun p : Θ × K => rng.nth (rng.nth p.2 (us.length + 1) 0) N := (measurable_nthAll h N).comp hk0
  have hc : Measurable fun p : Θ × K => (attach p.1 (coreInit (pathModel (mdl p.1)) u0
      (rng.nth (rng.nth p.2 (us.length + 1) 0) N)) : Core (ℕ → Θ × X) N) := by
    have hz : Measurable fun _ : Θ × K => ((fun _ => 0, 0) : (Fin N → Fl) × Fl) := measurable_const
    refine Measurable.prodMk (measurable_pi_iff.mpr fun i => measurable_pi_iff.mpr fun s => ?_) hz
    exact measurable_fst.prodMk (h0.comp (measurable_fst.prodMk ((measurable_pi_apply i).comp hn)))
  exact (measurable_coreAt h hR us t fun u hu' => pathModel_regular ((hu u hu').carry θ₀)).comp
    (hk0.prodMk (hc.prodMk ht))

/-- The weighted average of a function of the path, with values in `[0, ∞]`. -/
def pathAverage (S : ℕ → PFState K X Inp N) (t : ℕ) (f : (ℕ → X) → ℝ≥0∞) : ℝ≥0∞ :=
  ∑ i, ENNReal.ofReal (nw (S t).logWeights i) *
    f (ancestralPath (fun s => (S s).particles) (fun s => (S s).ancestors) t i)

omit [MeasurableSpace Θ] [MeasurableSpace K] [MeasurableSpace X] in
theorem pathAverage_eq (θ : Θ) (k : K) (t : ℕ) (ht : t ≤ us.length) (f : (ℕ → X) → ℝ≥0∞) :
    pathAverage (pfRun rng.toPrng (mdl θ) I L u0 us k) t f =
        ∑ i, ENNReal.ofReal (nw (pathCore rng mdl I L u0 us t (θ, k)).2.1 i) *
          f (fun s => (pathCore rng mdl I L u0 us t (θ, k)).1 i (t - s)) ∧
      (pfRun rng.toPrng (mdl θ) I L u0 us k t).logZ = (pathCore rng mdl I L u0 us t (θ, k)).2.2 := by
  obtain ⟨h1, h2, h3⟩ := pfRun_path (rng := rng.toPrng) (mdl := mdl θ) (I := I) (L := L) u0 us k t ht
  have h4 := core_pfAt (rng := rng.toPrng) (mdl := pathModel (mdl θ)) (I := I) (L := L) us t
    (pfInit rng.toPrng (pathModel (mdl θ)) N u0 (rng.nth k (us.length + 1) 0))
    (Fin.tail (rng.nth k (us.length + 1)))
  have h5 : pathCore rng mdl I L u0 us t (θ, k) =
      (pfRun rng.toPrng (pathModel (mdl θ)) I L u0 us k t).core := h4.symm
  rw [h5]
  simp only [PFState.core, h1, h2, h3, pathAverage, ancestralPath_clip, and_self]

theorem measurable_pathAverage [Nonempty Θ] (h : IdealRng rng P) (hR : UnbiasedWeights P I L)
    (h0 : Measurable fun q : Θ × K => (mdl q.1).initSample q.2 u0) (hu : ∀ u ∈ us, JointlyRegular mdl u) (t : ℕ)
    (ht : t ≤ us.length) {g : Θ → (ℕ → X) → ℝ≥0∞} (hg : Measurable fun q : Θ × (ℕ → X) => g q.1 q.2) :
    Measurable fun p : Θ × K => pathAverage (pfRun rng.toPrng (mdl p.1) I L u0 us p.2) t (g p.1) := by
  have hm := measurable_attach_pathCore h hR h0 hu t (us := us)
  simp only [fun p : Θ × K => (pathAverage_eq (rng := rng) (I := I) (L := L) (mdl := mdl) (u0 := u0) p.1 p.2 t ht (g p.1)).1]
  have hl : Measurable fun p : Θ × K => (pathCore rng mdl I L u0 us t p).2.1 :=
    (measurable_fst.comp measurable_snd : Measurable fun c : Core (ℕ → Θ × X) N => c.2.1).comp hm
  refine Finset.measurable_sum _ fun i _ => Measurable.mul ?_ ?_
  · exact ENNReal.measurable_ofReal.comp ((measurable_nw i).comp hl)
  · have hx : Measurable fun p : Θ × K => fun s => (pathCore rng mdl I L u0 us t p).1 i (t - s) :=
      measurable_pi_iff.mpr fun s => measurable_snd.comp
        ((measurable_pi_apply (t - s)).comp ((measurable_pi_apply i).comp (measurable_fst.comp hm)))
    exact hg.comp (measurable_fst.prodMk hx)

theorem measurable_logZ [Nonempty Θ] (h : IdealRng rng P) (hR : UnbiasedWeights P I L)
    (h0 : Measurable fun q : Θ × K => (mdl q.1).initSample q.2 u0) (hu : ∀ u ∈ us, JointlyRegular mdl u) (t : ℕ)
    (ht : t ≤ us.length) :
    Measurable fun p : Θ × K => (pfRun rng.toPrng (mdl p.1) I L u0 us p.2 t).logZ := by
  simp only [fun p : Θ × K => (pathAverage_eq (rng := rng) (I := I) (L := L) (mdl := mdl) (u0 := u0) p.1 p.2 t ht
    (fun _ => 1)).2]
  exact (measurable_snd.comp measurable_snd : Measurable fun c : Core (ℕ → Θ × X) N => c.2.2).comp
    (measurable_attach_pathCore h hR h0 hu t (us := us))

/-! ## C115 -/

/-- Metropolis-Hastings on the parameter of a family of models, where each proposed parameter is given a fresh run of the
particle filter and the evidence that this run reports takes the place of the exact one. The state of the chain is the
parameter with the key of its run. Started from its target and run for any number of steps,
* the chain is still distributed according to its target;
* the average of any function of parameter and path, over the weighted ancestral paths of the run, has as its expectation
  the exact joint posterior expectation, up to the common normalising constant (take a function of the parameter only for
  the posterior of the parameter). -/
def SamplesPosterior (rng : Rng K) (P : Measure K) (ν : Measure Θ) (prior : Θ → ℝ≥0∞) (q : Θ → Θ → ℝ≥0∞)
    (mdl : Θ → FKModel K X Inp) (R : Resampler K N X) (dummy : X) (u0 : Inp) (us : List Inp) : Prop :=
  ∃ S : Θ → K → ℕ → PFState K X Inp N,
    (∀ θ k, filter rng.toPrng (particleFilter rng.toPrng (mdl θ) dummy N R) (u0 :: us) false (some k) =
      ⟨false, .ok ((List.range (us.length + 1)).map fun t => .ok (S θ k t))⟩) ∧
    ∀ w : Θ × K → ℝ≥0∞, (w = fun p => prior p.1 * ENNReal.ofReal (S p.1 p.2 us.length).logZ.lik) →
    ∀ n : ℕ,
      (∀ f : Θ × K → ℝ≥0∞, Measurable f →
        ∫⁻ p, w p * (mhStep (ν.prod P) w fun x y => q x.1 y.1)^[n] f p ∂ν.prod P = ∫⁻ p, w p * f p ∂ν.prod P) ∧
      ∀ g : Θ → (ℕ → X) → ℝ≥0∞, (Measurable fun p : Θ × (ℕ → X) => g p.1 p.2) →
        ∫⁻ p, w p * (mhStep (ν.prod P) w fun x y => q x.1 y.1)^[n]
            (fun p => pathAverage (S p.1 p.2) us.length (g p.1)) p ∂ν.prod P =
          ∫⁻ θ, prior θ * fkExp ((mdl θ).init P u0) (us.map ((mdl θ).step P)) (g θ) ∂ν

/-- **C115** for a resampling function described by its indices and log-weights. -/
theorem particle_marginal_mh [NeZero N] [Nonempty Θ] {ν : Measure Θ} [SFinite ν] {prior : Θ → ℝ≥0∞}
    (hp : Measurable prior) (hp' : ∀ θ, prior θ ≠ ∞) {q : Θ → Θ → ℝ≥0∞} (hq : Measurable fun p : Θ × Θ => q p.1 p.2)
    (hq' : ∀ θ θ', q θ θ' ≠ ∞) (hq1 : ∀ θ, ∫⁻ θ', q θ θ' ∂ν = 1) (h : IdealRng rng P) {R : Resampler K N X}
    (hR : Uses R I L) (hU : UnbiasedWeights P I L)
    (hI : IndepSplit rng.toPrng P ∨ PrefixSplit rng.toPrng ∧ KeepsEqual P I L)
    (h0 : Measurable fun q : Θ × K => (mdl q.1).initSample q.2 u0) (us : List Inp) (hu : ∀ u ∈ us, JointlyRegular mdl u)
    (hd : RevivesDead L ∨ ∀ θ, ∀ u ∈ us, ∀ x x', ((mdl θ).logPotential x x' u).IsFin) (dummy : X) :
    SamplesPosterior rng P ν prior q mdl R dummy u0 us := by
  have := h.prob
  refine ⟨fun θ k t => pfRun rng.toPrng (mdl θ) I L u0 us k t, fun θ k => filter_pf_eq hR dummy u0 us k, ?_⟩
  rintro w hw n
  have hwm : Measurable w := by
    rw [hw]
    exact (hp.comp measurable_fst).mul (ENNReal.measurable_ofReal.comp (Fl.measurable_lik.comp
      (measurable_logZ h hU h0 hu us.length le_rfl)))
  have hw' : ∀ p, w p ≠ ∞ := fun p => by
    rw [hw]
    exact ENNReal.mul_ne_top (hp' _) ENNReal.ofReal_ne_top
  have hqm : Measurable fun p : (Θ × K) × Θ × K => q p.1.1 p.2.1 :=
    hq.comp ((measurable_fst.comp measurable_fst).prodMk (measurable_fst.comp measurable_snd))
  have hqi : ∀ x : Θ × K, ∫⁻ y : Θ × K, q x.1 y.1 ∂ν.prod P ≤ 1 := fun x => by
    have hx : Measurable fun y : Θ × K => q x.1 y.1 := hqm.comp measurable_prodMk_left
    rw [lintegral_prod _ hx.aemeasurable]
    simp [hq1]
  have inv : ∀ f : Θ × K → ℝ≥0∞, Measurable f →
      ∫⁻ p, w p * (mhStep (ν.prod P) w fun x y => q x.1 y.1)^[n] f p ∂ν.prod P = ∫⁻ p, w p * f p ∂ν.prod P :=
    fun f hf => lintegral_mhStep_iterate (q := fun x y : Θ × K => q x.1 y.1) hwm hqm hw' (fun _ _ => hq' _ _) hqi n hf
  refine ⟨inv, fun g hg => ?_⟩
  have hgm := measurable_pathAverage h hU h0 hu us.length le_rfl hg
  have hwg : Measurable fun p : Θ × K => w p * pathAverage (pfRun rng.toPrng (mdl p.1) I L u0 us p.2) us.length (g p.1) :=
    hwm.mul hgm
  rw [inv _ hgm, lintegral_prod _ hwg.aemeasurable]
  refine lintegral_congr fun θ => ?_
  have hgθ : Measurable (g θ) := hg.comp measurable_prodMk_left
  have h0θ : Measurable fun k => (mdl θ).initSample k u0 := h0.comp measurable_prodMk_left
  have e := lintegral_pathEst h hU hI h0θ us (fun u h' => (hu u h').regular θ) (hd.imp_right fun h1 => h1 θ) us.length
    le_rfl hgθ
  rw [List.take_length] at e
  rw [← e, ← lintegral_const_mul _ (measurable_pathEst h hU h0θ us (fun u h' => (hu u h').regular θ) us.length le_rfl hgθ)]
  refine lintegral_congr fun k => ?_
  rw [hw, mul_assoc]
  rfl

variable [NeZero N] [Nonempty Θ] {ν : Measure Θ} [SFinite ν] {prior : Θ → ℝ≥0∞} {q : Θ → Θ → ℝ≥0∞}

/-- **C115** with systematic resampling. -/
theorem systematic_particle_marginal_mh (hp : Measurable prior) (hp' : ∀ θ, prior θ ≠ ∞)
    (hq : Measurable fun p : Θ × Θ => q p.1 p.2) (hq' : ∀ θ θ', q θ θ' ≠ ∞) (hq1 : ∀ θ, ∫⁻ θ', q θ θ' ∂ν = 1)
    (h : IdealRng rng P) (hI : IndepSplit rng.toPrng P ∨ PrefixSplit rng.toPrng) (pf : Platform)
    (h0 : Measurable fun q : Θ × K => (mdl q.1).initSample q.2 u0) (us : List Inp)
    (hu : ∀ u ∈ us, JointlyRegular mdl u) (dummy : X) :
    SamplesPosterior (N := N) rng P ν prior q mdl (systematic rng pf) dummy u0 us :=
  particle_marginal_mh hp hp' hq hq' hq1 h (uses_systematic rng pf) (unbiasedWeights_systematic h pf)
    (hI.imp_right fun h1 => ⟨h1, keepsEqual_systematic h pf⟩) h0 us hu (.inl revivesDead_zero) dummy

/-- **C115** with killing resampling. -/
theorem killing_particle_marginal_mh (hp : Measurable prior) (hp' : ∀ θ, prior θ ≠ ∞)
    (hq : Measurable fun p : Θ × Θ => q p.1 p.2) (hq' : ∀ θ θ', q θ θ' ≠ ∞) (hq1 : ∀ θ, ∫⁻ θ', q θ θ' ∂ν = 1)
    (h : IdealRng rng P) (hI : IndepSplit rng.toPrng P ∨ PrefixSplit rng.toPrng) (pf : Platform)
    (h0 : Measurable fun q : Θ × K => (mdl q.1).initSample q.2 u0) (us : List Inp)
    (hu : ∀ u ∈ us, JointlyRegular mdl u) (dummy : X) :
    SamplesPosterior (N := N) rng P ν prior q mdl (killing rng pf) dummy u0 us :=
  particle_marginal_mh hp hp' hq hq' hq1 h (uses_killing rng pf) (unbiasedWeights_killing h pf)
    (hI.imp_right fun h1 => ⟨h1, keepsEqual_killing rng P pf⟩) h0 us hu (.inl revivesDead_zero) dummy

/-- **C115** with multinomial resampling, if splits of different sizes are independent (C53). -/
theorem multinomial_particle_marginal_mh (hp : Measurable prior) (hp' : ∀ θ, prior θ ≠ ∞)
    (hq : Measurable fun p : Θ × Θ => q p.1 p.2) (hq' : ∀ θ θ', q θ θ' ≠ ∞) (hq1 : ∀ θ, ∫⁻ θ', q θ θ' ∂ν = 1)
    (h : IdealRng rng P) (hI : IndepSplit rng.toPrng P) (pf : Platform)
    (h0 : Measurable fun q : Θ × K => (mdl q.1).initSample q.2 u0) (us : List Inp)
    (hu : ∀ u ∈ us, JointlyRegular mdl u) (dummy : X) :
    SamplesPosterior (N := N) rng P ν prior q mdl (multinomial rng pf) dummy u0 us :=
  particle_marginal_mh hp hp' hq hq' hq1 h (uses_multinomial rng pf) (unbiasedWeights_multinomial h pf) (.inl hI) h0 us hu
    (.inl revivesDead_zero) dummy

/-- **C115** with adaptive resampling around any of the three functions, for finite log potentials. -/
theorem adaptive_particle_marginal_mh (hp : Measurable prior) (hp' : ∀ θ, prior θ ≠ ∞)
    (hq : Measurable fun p : Θ × Θ => q p.1 p.2) (hq' : ∀ θ θ', q θ θ' ≠ ∞) (hq1 : ∀ θ, ∫⁻ θ', q θ θ' ∂ν = 1)
    (h : IdealRng rng P) (hI : IndepSplit rng.toPrng P ∨ PrefixSplit rng.toPrng) {R : Resampler K N X} {pf : Platform}
    (hR : R = multinomial rng pf ∨ R = systematic rng pf ∨ R = killing rng pf) {a : ℝ} (ha : a ≤ 1)
    (h0 : Measurable fun q : Θ × K => (mdl q.1).initSample q.2 u0) (us : List Inp)
    (hu : ∀ u ∈ us, JointlyRegular mdl u) (hd : ∀ θ, ∀ u ∈ us, ∀ x x', ((mdl θ).logPotential x x' u).IsFin) (dummy : X) :
    SamplesPosterior rng P ν prior q mdl (adaptive R a) dummy u0 us := by
  have := h.prob
  have key : ∀ I L, Uses R I L → UnbiasedWeights P I L →
      SamplesPosterior rng P ν prior q mdl (adaptive R a) dummy u0 us :=
    fun I L h1 h2 => particle_marginal_mh hp hp' hq hq' hq1 h (uses_adaptive h1 a) (h2.adaptive a)
      (hI.imp_right fun h3 => ⟨h3, keepsEqual_adaptive P I L ha⟩) h0 us hu (.inr hd) dummy
  rcases hR with rfl | rfl | rfl
  · exact key _ _ (uses_multinomial rng pf) (unbiasedWeights_multinomial h pf)
  · exact key _ _ (uses_systematic rng pf) (unbiasedWeights_systematic h pf)
  · exact key _ _ (uses_killing rng pf) (unbiasedWeights_killing h pf)

end joint

/-- A random walk with drift `θ` that prefers to stay above a moving threshold. -/
def driftModel (rng : Rng Key) (θ : ℝ) : FKModel Key ℝ ℝ where
  initSample k _ := rng.uniform0 k
  propagate k x _ := x + θ + rng.uniform0 k
  logPotential _ x' u := .fin (if x' < u then -1 else 0)

/-- Non-vacuity: an unknown drift `θ ∈ [0, 1]`, proposals uniform on `[0, 1]`. -/
example : ∃ rng : Rng Key, PrefixSplit rng.toPrng ∧
    SamplesPosterior (N := 5) rng keyLaw (volume.restrict (Icc (0 : ℝ) 1)) (fun _ => 1) (fun _ _ => 1) (driftModel rng)
      (systematic rng .cpu) 0 0 [1, 2, 3] := by
  obtain ⟨rng, h1, h2⟩ := exists_ideal_prefix
  have hreg : ∀ u, JointlyRegular (driftModel rng) u := fun u => by
    refine ⟨?_, ?_, fun _ _ _ => trivial⟩
    · exact ((measurable_snd.comp measurable_snd).add measurable_fst).add
        (h1.uniform0.measurable.comp (measurable_fst.comp measurable_snd))
    · exact Fl.measurable_fin.comp (Measurable.ite (measurableSet_lt (measurable_snd.comp measurable_snd)
        measurable_const) measurable_const measurable_const)
  exact ⟨rng, h2, systematic_particle_marginal_mh measurable_const (fun _ => ENNReal.one_ne_top) measurable_const
    (fun _ _ => ENNReal.one_ne_top) (fun _ => by simp) h1 (.inr h2) .cpu
    (h1.uniform0.measurable.comp measurable_snd) _ (fun u _ => hreg u) 0⟩

end

end Cuthbert.SMC
