import Verif.Lemmas.JointMeasure
import Verif.Spec.EM
import Verif.Props.Quadrature
import Mathlib.Analysis.Calculus.LocalExtr.Basic

/-!
# EM with the Kalman smoother does not decrease the likelihood (C95)
-/

namespace Cuthbert.Kalman
open MeasureTheory ProbabilityTheory Matrix Cuthbert Cuthbert.Spec
open scoped ENNReal

noncomputable section

variable {nx ny : ℕ} {Inp K : Type}

/-! ## Jensen's inequality -/

theorem jensen_exp {Ω : Type*} [MeasurableSpace Ω] (M : Measure Ω) {l l' a : ℝ} (hM : M Set.univ = ENNReal.ofReal (Real.exp l))
    {D : Ω → ℝ} (hD : Measurable D) (hi : Integrable D M) (hint : ∫ p, D p ∂M = Real.exp l * a)
    (hexp : ∫⁻ p, ENNReal.ofReal (Real.exp (D p)) ∂M = ENNReal.ofReal (Real.exp l')) : a ≤ l' - l := by
  have : IsFiniteMeasure M := ⟨by rw [hM]; exact ENNReal.ofReal_lt_top⟩
  have hie : Integrable (fun p => Real.exp (D p)) M :=
    (lintegral_ofReal_ne_top_iff_integrable hD.exp.aestronglyMeasurable (ae_of_all _ fun p => Real.exp_nonneg _)).mp
      (by rw [hexp]; exact ENNReal.ofReal_ne_top)
  have he : ∫ p, Real.exp (D p) ∂M = Real.exp l' := by
    rw [integral_eq_lintegral_of_nonneg_ae (ae_of_all _ fun p => Real.exp_nonneg _) hD.exp.aestronglyMeasurable, hexp,
      ENNReal.toReal_ofReal (Real.exp_nonneg _)]
  have h1 : ∫ p, Real.exp a * (D p - a + 1) ∂M ≤ ∫ p, Real.exp (D p) ∂M := by
    refine integral_mono (((hi.sub (integrable_const a)).add (integrable_const 1)).const_mul _) hie fun p => ?_
    have := Real.add_one_le_exp (D p - a)
    calc Real.exp a * (D p - a + 1) ≤ Real.exp a * Real.exp (D p - a) :=
          mul_le_mul_of_nonneg_left this (Real.exp_nonneg _)
      _ = Real.exp (D p) := by rw [← Real.exp_add]; congr 1; ring
  have hu : M.real Set.univ = Real.exp l := by rw [Measure.real, hM, ENNReal.toReal_ofReal (Real.exp_nonneg _)]
  have h2 : ∫ p, Real.exp a * (D p - a + 1) ∂M = Real.exp a * Real.exp l := by
    have hs : Integrable (fun p => D p - a) M := hi.sub (integrable_const a)
    rw [integral_const_mul, integral_add hs (integrable_const 1), integral_sub hi (integrable_const a), hint]
    simp only [integral_const, hu, smul_eq_mul]
    ring
  rw [h2, he, ← Real.exp_add, Real.exp_le_exp] at h1
  linarith

theorem transfer {Ω E : Type*} [MeasurableSpace Ω] [MeasurableSpace E] {M : Measure Ω} {π : Ω → E} (hπ : Measurable π)
    {ν : Measure E} {z : ℝ} (hz : 0 ≤ z)
    (H : ∀ φ : E → ℝ≥0∞, Measurable φ → ∫⁻ p, φ (π p) ∂M = ENNReal.ofReal z * ∫⁻ x, φ x ∂ν) {h : E → ℝ}
    (hh : Measurable h) (hi : Integrable h ν) :
    Integrable (fun p => h (π p)) M ∧ ∫ p, h (π p) ∂M = z * ∫ x, h x ∂ν := by
  have hmap : M.map π = ENNReal.ofReal z • ν := by
    refine Measure.ext_of_lintegral _ fun φ hφ => ?_
    rw [lintegral_map hφ hπ, H φ hφ, lintegral_smul_measure, smul_eq_mul]
  constructor
  · have : Integrable h (M.map π) := by rw [hmap]; exact hi.smul_measure ENNReal.ofReal_ne_top
    exact this.comp_measurable hπ
  · have := integral_map (μ := M) hπ.aemeasurable (f := h) hh.aestronglyMeasurable
    rw [← this, hmap, integral_smul_measure, ENNReal.toReal_ofReal hz, smul_eq_mul]

/-! ## The objective is the expected joint log density -/

section expected

variable {M : Measure (ℕ → Fin nx → ℝ)} {z : ℝ} {q : ℕ → Smoothed nx} {T : ℕ}

theorem emSteps_eq (hz : 0 ≤ z)
    (hone : ∀ t ≤ T, ∀ φ : (Fin nx → ℝ) → ℝ≥0∞, Measurable φ →
      ∫⁻ p, φ (p t) ∂M = ENNReal.ofReal z * ∫⁻ x, φ x ∂gauss (q t).m (q t).L)
    (htwo : ∀ t < T, ∀ φ : (Fin nx ⊕ Fin nx → ℝ) → ℝ≥0∞, Measurable φ →
      ∫⁻ p, φ (Sum.elim (p (t + 1)) (p t)) ∂M = ENNReal.ofReal z * ∫⁻ x, φ x ∂(q t).joint (q (t + 1)))
    (σ : List (Step nx ny)) : ∀ k, k + σ.length ≤ T →
    Integrable (fun p => logDensityFrom σ fun n => p (k + n)) M ∧
      ∫ p, logDensityFrom σ (fun n => p (k + n)) ∂M = z * emSteps σ fun n => q (k + n) := by
  induction σ with
  | nil => intro k _; simp [logDensityFrom, emSteps]
  | cons s σ ih =>
    intro k hk
    simp only [List.length_cons] at hk
    obtain ⟨i3, e3⟩ := ih (k + 1) (by omega)
    have hpair : Measurable fun p : ℕ → Fin nx → ℝ => (Sum.elim (p (k + 1)) (p k) : Fin nx ⊕ Fin nx → ℝ) := by
      refine measurable_pi_lambda _ fun i => ?_
      rcases i with i | i
      · exact (measurable_pi_apply i).comp (measurable_pi_apply (k + 1))
      · exact (measurable_pi_apply i).comp (measurable_pi_apply k)
    have hl : Measurable fun (w : Fin nx ⊕ Fin nx → ℝ) i => w (.inl i) := measurable_pi_lambda _ fun i => measurable_pi_apply _
    have hr : Measurable fun (w : Fin nx ⊕ Fin nx → ℝ) i => w (.inr i) := measurable_pi_lambda _ fun i => measurable_pi_apply _
    have m1 : Measurable fun w : Fin nx ⊕ Fin nx → ℝ => gaussLogDensity (s.F *ᵥ (fun i => w (.inr i)) + s.c)
        (s.cholQ * s.cholQᵀ) (fun i => w (.inl i)) :=
      measurable_gaussLogDensity_of _ (((measurable_mulVec _).comp hr).add_const _) hl
    have j1 : Integrable (fun w : Fin nx ⊕ Fin nx → ℝ => gaussLogDensity (s.F *ᵥ (fun i => w (.inr i)) + s.c)
        (s.cholQ * s.cholQᵀ) (fun i => w (.inl i))) ((q k).joint (q (k + 1))) := by
      unfold Smoothed.joint
      exact integrable_gaussLogDensity _ (memLp_mulVec s.F s.c (u := fun (w : Fin nx ⊕ Fin nx → ℝ) i => w (.inr i))
        fun i => memLp_gauss_coord _ _ (Sum.inr i)) fun i => memLp_gauss_coord _ _ (Sum.inl i)
    obtain ⟨i1, e1⟩ := transfer hpair hz (htwo k (by omega)) m1 j1
    have m2 : Measurable fun x : Fin nx → ℝ => gaussLogDensity (obsH s.y s.H *ᵥ x + obsV s.y s.d) s.R (obsY s.y) :=
      measurable_gaussLogDensity_of _ ((measurable_mulVec _).add_const _) measurable_const
    have j2 : Integrable (fun x : Fin nx → ℝ => gaussLogDensity (obsH s.y s.H *ᵥ x + obsV s.y s.d) s.R (obsY s.y))
        (gauss (q (k + 1)).m (q (k + 1)).L) :=
      integrable_gaussLogDensity _ (memLp_mulVec _ _ fun i => memLp_gauss_coord _ _ i) fun i => memLp_const _
    have hπ : Measurable fun p : ℕ → Fin nx → ℝ => p (k + 1) := measurable_pi_apply (k + 1)
    obtain ⟨i2, e2⟩ := transfer hπ hz (hone (k + 1) (by omega)) m2 j2
    simp only [Sum.elim_inl, Sum.elim_inr] at i1 e1
    have eq : (fun n => q (k + (n + 1))) = fun n => q (k + 1 + n) := funext fun n => congrArg q (by omega)
    have ep : ∀ p : ℕ → Fin nx → ℝ, (fun n => p (k + (n + 1))) = fun n => p (k + 1 + n) := fun p =>
      funext fun n => congrArg p (by omega)
    simp only [logDensityFrom, emSteps, Nat.add_zero, eq, ep]
    refine ⟨(i1.add i2).add i3, ?_⟩
    have i12 := i1.add i2
    refine (integral_add i12 i3).trans ?_
    have h12 := integral_add i1 i2
    simp only [expTransition, expObservation]
    rw [e3, mul_add, mul_add, ← e1, ← e2, ← h12]
    rfl

theorem emObjective_eq (hz : 0 ≤ z)
    (hone : ∀ t ≤ T, ∀ φ : (Fin nx → ℝ) → ℝ≥0∞, Measurable φ →
      ∫⁻ p, φ (p t) ∂M = ENNReal.ofReal z * ∫⁻ x, φ x ∂gauss (q t).m (q t).L)
    (htwo : ∀ t < T, ∀ φ : (Fin nx ⊕ Fin nx → ℝ) → ℝ≥0∞, Measurable φ →
      ∫⁻ p, φ (Sum.elim (p (t + 1)) (p t)) ∂M = ENNReal.ofReal z * ∫⁻ x, φ x ∂(q t).joint (q (t + 1)))
    (m0 : Fin nx → ℝ) (L0 : Matrix (Fin nx) (Fin nx) ℝ) (σ : List (Step nx ny)) (hσ : σ.length ≤ T) :
    Integrable (fun p => pathLogDensity m0 L0 σ p) M ∧
      ∫ p, pathLogDensity m0 L0 σ p ∂M = z * emObjective m0 L0 σ q := by
  obtain ⟨i1, e1⟩ := emSteps_eq hz hone htwo σ 0 (by omega)
  have m2 : Measurable fun x : Fin nx → ℝ => gaussLogDensity m0 (L0 * L0ᵀ) x :=
    measurable_gaussLogDensity_of _ measurable_const measurable_id
  have j2 : Integrable (fun x : Fin nx → ℝ => gaussLogDensity m0 (L0 * L0ᵀ) x) (gauss (q 0).m (q 0).L) :=
    integrable_gaussLogDensity _ (fun i => memLp_const _) fun i => memLp_gauss_coord _ _ i
  have hπ : Measurable fun p : ℕ → Fin nx → ℝ => p 0 := measurable_pi_apply 0
  obtain ⟨i2, e2⟩ := transfer hπ hz (hone 0 (by omega)) m2 j2
  simp only [Nat.zero_add] at i1 e1
  refine ⟨i2.add i1, ?_⟩
  simp only [pathLogDensity]
  rw [integral_add i2 i1, e1, e2, emObjective]
  ring

end expected

/-! ## Filter and smoother runs -/

/-- The smoothing states, the first being at time 0 and the last at time `T`, report `q`. -/
def Reports (states : List (SmootherState nx Inp)) (T : ℕ) (q : ℕ → Smoothed nx) : Prop :=
  ∀ t ≤ T, ∃ s, states[t]? = some s ∧ s.mean = some (q t).m ∧ s.cholCov = some (q t).L ∧
    (t < T → s.gain = some (some (q t).G) ∧ s.cholCovGivenNext = some (some (q t).V))

/-- All covariances of the model are nonsingular, and the initial factor is lower triangular. -/
structure Nondegenerate (cb : Callbacks nx ny Inp) (u₀ : Inp) (us : List Inp) : Prop where
  lower : IsLower (cb.getInit u₀).2
  init : ∀ i, (cb.getInit u₀).2 i i ≠ 0
  trans : ∀ u ∈ us, (stepOf cb u).cholQ.det ≠ 0
  obs : ∀ u ∈ us, (stepOf cb u).R.det ≠ 0

/-- `log p(x_0..x_T, y_1..y_T)` of the model, averaged over the smoothing distribution `q`. -/
def objectiveOf (cb : Callbacks nx ny Inp) (u₀ : Inp) (us : List Inp) (q : ℕ → Smoothed nx) : ℝ :=
  emObjective (cb.getInit u₀).1 (cb.getInit u₀).2 (us.map (stepOf cb)) q

theorem Nondegenerate.det_init {cb : Callbacks nx ny Inp} {u₀ : Inp} {us : List Inp} (h : Nondegenerate cb u₀ us) :
    (cb.getInit u₀).2.det ≠ 0 := by
  have := h.lower.diag_ne_zero_iff_gram.mp h.init
  rw [Matrix.det_mul] at this
  exact left_ne_zero_of_mul this

theorem Nondegenerate.gramQ {cb : Callbacks nx ny Inp} {u₀ : Inp} {us : List Inp} (h : Nondegenerate cb u₀ us)
    {u : Inp} (hu : u ∈ us) : ((stepOf cb u).cholQ * (stepOf cb u).cholQᵀ).det ≠ 0 := by
  rw [Matrix.det_mul, Matrix.det_transpose]
  exact mul_ne_zero (h.trans u hu) (h.trans u hu)

/-- The last reported constant is the logarithm of the evidence. -/
theorem evidence (qr : QR) (rng : Prng K) {cb : Callbacks nx ny Inp} {u₀ : Inp} {us : List Inp} (parallel : Bool)
    (key : Option K) (h : Nondegenerate cb u₀ us) {states : List (FilterState nx Inp)}
    (hf : (filter rng (buildFilter qr cb) (u₀ :: us) parallel key).result = .ok states) :
    ∃ s l, states[us.length]? = some s ∧ s.logNormalizingConstant = some l ∧
      jointExp (cb.getInit u₀).1 (cb.getInit u₀).2 (us.map (stepOf cb)) (fun _ => 1) = ENNReal.ofReal (Real.exp l) := by
  obtain ⟨states', hst, -, hall⟩ := kalman_filter_exact qr rng cb u₀ us parallel key h.obs
  rw [hf] at hst
  obtain rfl := Except.ok.inj hst
  obtain ⟨s, m, L, l, hs, -, -, hφ, hl⟩ := hall us.length le_rfl
  refine ⟨s, l, hs, (hl h.lower).2 h.init fun u hu => .inr (h.gramQ hu), ?_⟩
  have := hφ (fun _ => 1) measurable_const
  rw [List.take_length] at this
  rw [this]
  simp

/-- **C95.** Run the Kalman filter and smoother under one set of callbacks, with the gain and the conditional factor
stored. For any other callbacks on the same inputs, the reported log likelihood changes by at least as much as the EM
objective built from the smoothing states. -/
theorem kalman_em (qr : QR) (rng rng' : Prng K) (cb : Callbacks nx ny Inp) (u₀ : Inp) (us : List Inp) (hus : us ≠ [])
    (parallel parallel' : Bool) (key key' : Option K) (opts : SmootherOpts nx Inp) (hG : opts.storeGain = true)
    (hV : opts.storeCholCovGivenNext = true) (h : Nondegenerate cb u₀ us) {filterStates : List (FilterState nx Inp)}
    (hf : (filter rng (buildFilter qr cb) (u₀ :: us) parallel key).result = .ok filterStates)
    {states : List (SmootherState nx Inp)} (mi : Option (List Inp))
    (hmi : mi = none ∨ mi = some us ∨ mi = some (u₀ :: us))
    (hs : (smoother rng' FilterState.modelInputs (fun u => .ok (opts.dummy u))
        (buildSmoother qr cb.getDynamics opts) filterStates mi parallel' key').result = .ok states) :
    ∃ q s l, Reports states us.length q ∧ filterStates[us.length]? = some s ∧
      s.logNormalizingConstant = some l ∧
      ∀ (cb' : Callbacks nx ny Inp) (qr' : QR) (rng'' : Prng K) (parallel'' : Bool) (key'' : Option K)
        (filterStates' : List (FilterState nx Inp)), Nondegenerate cb' u₀ us →
        (filter rng'' (buildFilter qr' cb') (u₀ :: us) parallel'' key'').result = .ok filterStates' →
        ∃ s' l', filterStates'[us.length]? = some s' ∧ s'.logNormalizingConstant = some l' ∧
          objectiveOf cb' u₀ us q - objectiveOf cb u₀ us q ≤ l' - l := by
  have hP : ∀ (t : ℕ) s L u, filterStates[t]? = some s → s.cholCov = some L → us[t]? = some u →
      ((stepOf cb u).F * (L * Lᵀ) * ((stepOf cb u).F)ᵀ +
        (stepOf cb u).cholQ * ((stepOf cb u).cholQ)ᵀ).det ≠ 0 := by
    intro t s L u _ _ hu
    rw [add_comm]
    exact (isGram_of _).det_add_ne_zero (h.gramQ (List.mem_of_getElem? hu)) ((isGram_of L).conj _)
  obtain ⟨states', l₁, hst, hlen, hone, htwo⟩ := kalman_smoother_exact qr rng rng' cb u₀ us hus parallel parallel' key
    key' opts h.obs filterStates hf hP mi hmi
  rw [hs] at hst
  obtain rfl := Except.ok.inj hst
  obtain ⟨s, l, hsl, hll, hev⟩ := evidence qr rng parallel key h hf
  -- the two constants agree
  have hl : l₁ = l := by
    obtain ⟨_, m, L, -, -, -, hφ⟩ := hone 0 (Nat.zero_le _)
    have := hφ (fun _ => 1) measurable_const
    rw [hev] at this
    simp only [lintegral_const, measure_univ, mul_one] at this
    exact (Real.exp_injective ((ENNReal.ofReal_eq_ofReal_iff (Real.exp_nonneg _) (Real.exp_nonneg _)).mp this)).symm
  subst hl
  -- the reported laws
  have hq : ∀ t, ∃ Q : Smoothed nx, t ≤ us.length → ∃ s, states[t]? = some s ∧ s.mean = some Q.m ∧
      s.cholCov = some Q.L ∧ (t < us.length → s.gain = some (some Q.G) ∧ s.cholCovGivenNext = some (some Q.V)) := by
    intro t
    by_cases ht : t ≤ us.length
    · obtain ⟨s, m, L, hs, hm, hL, -⟩ := hone t ht
      by_cases ht' : t < us.length
      · obtain ⟨s', m', L', hs', hm', hL', -⟩ := hone (t + 1) ht'
        obtain ⟨G, V, hg, hv, -⟩ := htwo t s s' m m' L L' hs hs' hm hm' hL hL'
        rw [hG, if_pos rfl] at hg
        rw [hV, if_pos rfl] at hv
        exact ⟨⟨m, L, G, V⟩, fun _ => ⟨s, hs, hm, hL, fun _ => ⟨hg, hv⟩⟩⟩
      · exact ⟨⟨m, L, 0, 0⟩, fun _ => ⟨s, hs, hm, hL, fun h => absurd h ht'⟩⟩
    · exact ⟨⟨0, 0, 0, 0⟩, fun h => absurd h ht⟩
  choose q hq using hq
  refine ⟨q, s, l₁, hq, hsl, hll, ?_⟩
  intro cb' qr' rng'' parallel'' key'' filterStates' h' hf'
  obtain ⟨s', l', hsl', hll', hev'⟩ := evidence qr' rng'' parallel'' key'' h' hf'
  refine ⟨s', l', hsl', hll', ?_⟩
  obtain ⟨M, hM⟩ : ∃ M, M = jointMeasure (cb.getInit u₀).1 (cb.getInit u₀).2 (us.map (stepOf cb)) := ⟨_, rfl⟩
  have hMl : ∀ {f : (ℕ → Fin nx → ℝ) → ℝ≥0∞}, Measurable f → ∫⁻ p, f p ∂M =
      jointExp (cb.getInit u₀).1 (cb.getInit u₀).2 (us.map (stepOf cb)) f := fun hf => by
    rw [hM, lintegral_jointMeasure _ _ _ hf]
  have hone' : ∀ t ≤ us.length, ∀ φ : (Fin nx → ℝ) → ℝ≥0∞, Measurable φ →
      ∫⁻ p, φ (p t) ∂M = ENNReal.ofReal (Real.exp l₁) * ∫⁻ x, φ x ∂gauss (q t).m (q t).L := by
    intro t ht φ hφ
    have hm : Measurable fun p : ℕ → Fin nx → ℝ => φ (p t) := hφ.comp (measurable_pi_apply t)
    obtain ⟨s, m, L, hs, hm', hL, hall⟩ := hone t ht
    obtain ⟨s₁, hs₁, h1, h2, -⟩ := hq t ht
    rw [hs] at hs₁
    obtain rfl := Option.some.inj hs₁
    rw [hm'] at h1
    rw [hL] at h2
    rw [hMl hm, hall φ hφ, Option.some.inj h1, Option.some.inj h2]
  have htwo' : ∀ t < us.length, ∀ φ : (Fin nx ⊕ Fin nx → ℝ) → ℝ≥0∞, Measurable φ →
      ∫⁻ p, φ (Sum.elim (p (t + 1)) (p t)) ∂M =
        ENNReal.ofReal (Real.exp l₁) * ∫⁻ x, φ x ∂(q t).joint (q (t + 1)) := by
    intro t ht φ hφ
    have hpair : Measurable fun p : ℕ → Fin nx → ℝ => (Sum.elim (p (t + 1)) (p t) : Fin nx ⊕ Fin nx → ℝ) := by
      refine measurable_pi_lambda _ fun i => ?_
      rcases i with i | i
      · exact (measurable_pi_apply i).comp (measurable_pi_apply (t + 1))
      · exact (measurable_pi_apply i).comp (measurable_pi_apply t)
    have hm : Measurable fun p : ℕ → Fin nx → ℝ => φ (Sum.elim (p (t + 1)) (p t)) := hφ.comp hpair
    obtain ⟨s, hs, h1, h2, h3⟩ := hq t ht.le
    obtain ⟨s₂, hs₂, h4, h5, -⟩ := hq (t + 1) ht
    obtain ⟨G, V, hg, hv, -, hall⟩ := htwo t s s₂ _ _ _ _ hs hs₂ h1 h4 h2 h5
    rw [hG, if_pos rfl, (h3 ht).1] at hg
    rw [hV, if_pos rfl, (h3 ht).2] at hv
    rw [hMl hm, hall φ hφ, Smoothed.joint, Option.some.inj (Option.some.inj hg),
      Option.some.inj (Option.some.inj hv)]
  obtain ⟨i1, e1⟩ := emObjective_eq (Real.exp_nonneg l₁) hone' htwo' (cb.getInit u₀).1 (cb.getInit u₀).2
    (us.map (stepOf cb)) (by simp)
  obtain ⟨i2, e2⟩ := emObjective_eq (Real.exp_nonneg l₁) hone' htwo' (cb'.getInit u₀).1 (cb'.getInit u₀).2
    (us.map (stepOf cb')) (by simp)
  have hmeas : ∀ m L σ, Measurable fun p : ℕ → Fin nx → ℝ => pathLogDensity m L (σ : List (Step nx ny)) p :=
    fun m L σ => (measurable_gaussLogDensity_of _ measurable_const (measurable_pi_apply 0)).add
      (measurable_logDensityFrom σ)
  refine jensen_exp M (D := fun p => pathLogDensity (cb'.getInit u₀).1 (cb'.getInit u₀).2 (us.map (stepOf cb')) p -
      pathLogDensity (cb.getInit u₀).1 (cb.getInit u₀).2 (us.map (stepOf cb)) p) ?_
    ((hmeas _ _ _).sub (hmeas _ _ _)) (i2.sub i1) ?_ ?_
  · rw [← lintegral_one, hMl measurable_const, hev]
  · rw [integral_sub i2 i1, e1, e2, objectiveOf, objectiveOf]
    ring
  · have hD : Measurable fun p : ℕ → Fin nx → ℝ => ENNReal.ofReal (Real.exp
        (pathLogDensity (cb'.getInit u₀).1 (cb'.getInit u₀).2 (us.map (stepOf cb')) p -
          pathLogDensity (cb.getInit u₀).1 (cb.getInit u₀).2 (us.map (stepOf cb)) p)) :=
      ((hmeas _ _ _).sub (hmeas _ _ _)).exp.ennreal_ofReal
    rw [← hev', hMl hD,
      jointExp_change (cb.getInit u₀).1 (cb'.getInit u₀).1 (cb.getInit u₀).2 (cb'.getInit u₀).2 (us.map (stepOf cb))
        (us.map (stepOf cb')) (by simp) h.det_init h'.det_init (by simpa using h.trans) (by simpa using h'.trans)
        measurable_const]
    simp only [one_mul]

/-- **C95** (EM is monotone). Callbacks that do not decrease the objective do not decrease the likelihood. -/
theorem kalman_em_monotone (qr : QR) (rng rng' : Prng K) (cb : Callbacks nx ny Inp) (u₀ : Inp) (us : List Inp)
    (hus : us ≠ []) (parallel parallel' : Bool) (key key' : Option K) (opts : SmootherOpts nx Inp)
    (hG : opts.storeGain = true) (hV : opts.storeCholCovGivenNext = true) (h : Nondegenerate cb u₀ us)
    {filterStates : List (FilterState nx Inp)}
    (hf : (filter rng (buildFilter qr cb) (u₀ :: us) parallel key).result = .ok filterStates)
    {states : List (SmootherState nx Inp)}
    (hs : (smoother rng' FilterState.modelInputs (fun u => .ok (opts.dummy u))
        (buildSmoother qr cb.getDynamics opts) filterStates none parallel' key').result = .ok states) :
    ∃ q, Reports states us.length q ∧
      ∀ (cb' : Callbacks nx ny Inp) (filterStates' : List (FilterState nx Inp)), Nondegenerate cb' u₀ us →
        (filter rng (buildFilter qr cb') (u₀ :: us) parallel key).result = .ok filterStates' →
        objectiveOf cb u₀ us q ≤ objectiveOf cb' u₀ us q →
        ∃ s s' l l', filterStates[us.length]? = some s ∧ filterStates'[us.length]? = some s' ∧
          s.logNormalizingConstant = some l ∧ s'.logNormalizingConstant = some l' ∧ l ≤ l' := by
  obtain ⟨q, s, l, hq, hsl, hl, hall⟩ := kalman_em qr rng rng' cb u₀ us hus parallel parallel' key key' opts hG hV h hf
    none (.inl rfl) hs
  refine ⟨q, hq, fun cb' filterStates' h' hf' hle => ?_⟩
  obtain ⟨s', l', hsl', hl', hineq⟩ := hall cb' qr rng parallel key filterStates' h' hf'
  exact ⟨s, s', l, l', hsl, hsl', hl, hl', by linarith⟩

/-- **C95** (Fisher's identity). At the parameter under which the smoother ran, the objective and the reported log
likelihood have the same derivative along every curve of models. -/
theorem kalman_em_gradient (qr : QR) (rng rng' : Prng K) (cb : ℝ → Callbacks nx ny Inp) (θ : ℝ) (u₀ : Inp)
    (us : List Inp) (hus : us ≠ []) (parallel parallel' : Bool) (key key' : Option K) (opts : SmootherOpts nx Inp)
    (hG : opts.storeGain = true) (hV : opts.storeCholCovGivenNext = true) (h : ∀ η, Nondegenerate (cb η) u₀ us)
    {filterStates : List (FilterState nx Inp)}
    (hf : (filter rng (buildFilter qr (cb θ)) (u₀ :: us) parallel key).result = .ok filterStates)
    {states : List (SmootherState nx Inp)}
    (hs : (smoother rng' FilterState.modelInputs (fun u => .ok (opts.dummy u))
        (buildSmoother qr (cb θ).getDynamics opts) filterStates none parallel' key').result = .ok states)
    (l : ℝ → ℝ)
    (hl : ∀ η, ∃ fs s, (filter rng (buildFilter qr (cb η)) (u₀ :: us) parallel key).result = .ok fs ∧
      fs[us.length]? = some s ∧ s.logNormalizingConstant = some (l η)) :
    ∃ q, Reports states us.length q ∧
      ∀ a b, HasDerivAt (fun η => objectiveOf (cb η) u₀ us q) a θ → HasDerivAt l b θ → a = b := by
  obtain ⟨q, s, l₀, hq, hsl, hl₀, hall⟩ := kalman_em qr rng rng' (cb θ) u₀ us hus parallel parallel' key key' opts hG hV
    (h θ) hf none (.inl rfl) hs
  refine ⟨q, hq, fun a b ha hb => ?_⟩
  have hθ : l θ = l₀ := by
    obtain ⟨fs, s₁, hfs, hs₁, hl₁⟩ := hl θ
    rw [hf] at hfs
    obtain rfl := Except.ok.inj hfs
    rw [hsl] at hs₁
    obtain rfl := Option.some.inj hs₁
    rw [hl₀] at hl₁
    exact (Option.some.inj hl₁).symm
  have hmin : IsLocalMin (fun η => l η - objectiveOf (cb η) u₀ us q) θ := by
    refine Filter.Eventually.of_forall fun η => ?_
    obtain ⟨fs, s₁, hfs, hs₁, hl₁⟩ := hl η
    obtain ⟨s', l', hs', hl', hineq⟩ := hall (cb η) qr rng parallel key fs (h η) hfs
    rw [hs₁] at hs'
    obtain rfl := Option.some.inj hs'
    rw [hl₁] at hl'
    obtain rfl := Option.some.inj hl'
    change l θ - _ ≤ l η - _
    linarith
  linarith [hmin.hasDerivAt_eq_zero (hb.sub ha)]

/-! ## The recipe of the documentation -/

/-- The objective that `docs/examples/parameter_estimation_em.md:234-278` builds: `joint_means` (line 255) puts the
mean of time `t` first, `construct_joint_chol_cov` (lines 257-269) and `loss_dynamics` (lines 234-245) expect the
state of time `t + 1` first. Simplified to exact integrals; the example uses 10-point Gauss-Hermite rules, which are
exact for these quadratics. -/
def docsSteps : List (Step nx ny) → (ℕ → Smoothed nx) → ℝ
  | [], _ => 0
  | s :: ss, q => expTransition s (gauss (Sum.elim (q 0).m (q 1).m)
        (Matrix.fromBlocks (q 1).L 0 ((q 0).G * (q 1).L) (q 0).V)) + expObservation s (gauss (q 1).m (q 1).L) +
      docsSteps ss fun n => q (n + 1)

/-- The whole objective of the example: initial, dynamics and observation terms (lines 271-277). -/
def docsObjective (cb : Callbacks nx ny Inp) (u₀ : Inp) (us : List Inp) (q : ℕ → Smoothed nx) : ℝ :=
  ∫ x, gaussLogDensity (cb.getInit u₀).1 ((cb.getInit u₀).2 * ((cb.getInit u₀).2)ᵀ) x ∂gauss (q 0).m (q 0).L +
    docsSteps (us.map (stepOf cb)) q

/-- `x_0 ~ N(5, 1)`, `x_1 ~ N(c, 1)`, `y_1 = x_1 + N(0, 1)`, observed to be 0. -/
def shiftModel (c : ℝ) : Callbacks 1 1 Unit where
  getInit _ := (fun _ => 5, 1)
  getDynamics _ := (0, fun _ => c, 1)
  getObservation _ := (1, fun _ => 0, 1, fun _ => some 0)

theorem shiftModel_nondegenerate (c : ℝ) (us : List Unit) : Nondegenerate (shiftModel c) () us where
  lower i j h := by simp [shiftModel, h.ne]
  init i := by simp [shiftModel]
  trans u _ := by simp [shiftModel, stepOf]
  obs u _ := obsR_det _ _ (by simp [stepOf, shiftModel])

/-- Non-vacuity for C95: the runs exist, whatever the number of steps, and satisfy the hypotheses. -/
example (qr : QR) (rng : Prng K) (c : ℝ) (us : List Unit) (hus : us ≠ []) (parallel : Bool) (key : Option K)
    (opts : SmootherOpts 1 Unit) :
    ∃ fs ss, (filter rng (buildFilter qr (shiftModel c)) (() :: us) parallel key).result = .ok fs ∧
      (smoother rng FilterState.modelInputs (fun u => .ok (opts.dummy u))
        (buildSmoother qr (shiftModel c).getDynamics opts) fs none parallel key).result = .ok ss ∧
      Nondegenerate (shiftModel c) () us := by
  have h := shiftModel_nondegenerate c us
  obtain ⟨fs, hfs, -⟩ := kalman_filter_exact qr rng (shiftModel c) () us parallel key h.obs
  obtain ⟨ss, -, hss, -⟩ := kalman_smoother_exact qr rng rng (shiftModel c) () us hus parallel parallel key key opts h.obs
    fs hfs (fun t s L u _ _ _ => by simp [stepOf, shiftModel]) none (.inl rfl)
  exact ⟨fs, ss, hfs, hss, h⟩

theorem gaussLogDensity_unique {ι : Type*} [Fintype ι] [DecidableEq ι] [Unique ι] (m : ι → ℝ) (S : Matrix ι ι ℝ)
    (y : ι → ℝ) : gaussLogDensity m S y =
      -(1 / 2) * ((y default - m default) ^ 2 * (S default default)⁻¹) - 1 / 2 * Real.log (2 * Real.pi) -
        1 / 2 * Real.log (S default default) := by
  have hd : S.det = S default default := Matrix.det_unique S
  have hi : S⁻¹ default default = (S default default)⁻¹ := by
    rw [Matrix.inv_subsingleton]
    simp
  simp only [gaussLogDensity, dotProduct, Matrix.mulVec, Fintype.sum_unique, hi, hd, Pi.sub_apply, Fintype.card_unique]
  push_cast
  ring

theorem integral_gauss_coord {ι κ : Type*} [Fintype ι] [Fintype κ] (m : ι → ℝ) (L : Matrix ι κ ℝ) (i : ι) :
    ∫ x, x i ∂gauss m L = m i := by
  classical
  have hf := Generate.gauss_functional m L (Pi.single i 1)
  simp only [single_one_dotProduct] at hf
  have h1 := integral_map (μ := gauss m L) (measurable_pi_apply i).aemeasurable (f := fun z : ℝ => z)
    measurable_id.aestronglyMeasurable
  rw [← h1, hf]
  exact integral_id_gaussianReal

/-- Log likelihood of the shifted model: `y_1 ~ N(c, 2)`. -/
theorem shiftModel_l (c : ℝ) : (kfAt (shiftModel c) () [()] 1).l =
    -(1 / 2) * (c ^ 2 * 2⁻¹) - 1 / 2 * Real.log (2 * Real.pi) - 1 / 2 * Real.log 2 := by
  rw [kfAt_succ (shiftModel c) () [()] 0 () rfl]
  let _ : Unique (Obs (stepOf (shiftModel c) ()).y) :=
    { default := ⟨0, rfl⟩, uniq := fun ⟨i, _⟩ => Subtype.ext (Subsingleton.elim _ _) }
  simp only [kfStep]
  rw [gaussLogDensity_unique]
  have h1 : (obsH (stepOf (shiftModel c) ()).y (stepOf (shiftModel c) ()).H) default 0 = 1 := by
    change (1 : Matrix (Fin 1) (Fin 1) ℝ) 0 0 = 1
    rw [Matrix.one_apply_eq]
  have hR : (stepOf (shiftModel c) ()).R default default = 1 := by
    rw [Step.R, Matrix.mul_apply, Fin.sum_univ_one]
    change (1 : Matrix (Fin 1) (Fin 1) ℝ) 0 0 * (1 : Matrix (Fin 1) (Fin 1) ℝ) 0 0 = 1
    rw [Matrix.one_apply_eq, mul_one]
  have hS : ∀ P : Matrix (Fin 1) (Fin 1) ℝ, innovCov P (obsH (stepOf (shiftModel c) ()).y (stepOf (shiftModel c) ()).H)
      (stepOf (shiftModel c) ()).R default default = P 0 0 + 1 := by
    intro P
    simp only [innovCov, Matrix.add_apply, Matrix.mul_apply, Fin.sum_univ_one, Matrix.transpose_apply, h1, hR]
    ring
  have hm : ∀ v : Fin 1 → ℝ, (obsH (stepOf (shiftModel c) ()).y (stepOf (shiftModel c) ()).H *ᵥ v +
      obsV (stepOf (shiftModel c) ()).y (stepOf (shiftModel c) ()).d) default = v 0 := by
    intro v
    rw [Pi.add_apply, Matrix.mulVec, dotProduct, Fin.sum_univ_one, h1]
    change 1 * v 0 + 0 = v 0
    ring
  have hy : obsY (stepOf (shiftModel c) ()).y default = 0 := rfl
  rw [hS, hm, hy]
  have h0 : (kfAt (shiftModel c) () [()] 0).l = 0 := rfl
  have hp : ∀ P : Matrix (Fin 1) (Fin 1) ℝ, ((stepOf (shiftModel c) ()).F * P * ((stepOf (shiftModel c) ()).F)ᵀ +
      (stepOf (shiftModel c) ()).cholQ * ((stepOf (shiftModel c) ()).cholQ)ᵀ) 0 0 = 1 := by
    intro P
    simp [stepOf, shiftModel]
  have hc : ∀ v : Fin 1 → ℝ, ((stepOf (shiftModel c) ()).F *ᵥ v + (stepOf (shiftModel c) ()).c) 0 = c := by
    intro v
    simp [stepOf, shiftModel]
  rw [hp, hc, h0]
  norm_num

/-- The transition term of the example for the shifted model. -/
theorem shiftModel_transition (c : ℝ) (m : Fin 1 ⊕ Fin 1 → ℝ) (L : Matrix (Fin 1 ⊕ Fin 1) (Fin 1 ⊕ Fin 1) ℝ) :
    expTransition (stepOf (shiftModel c) ()) (gauss m L) =
      c * m (.inl 0) - c ^ 2 / 2 + expTransition (stepOf (shiftModel 0) ()) (gauss m L) := by
  have h : ∀ (b : ℝ) (z : Fin 1 ⊕ Fin 1 → ℝ), gaussLogDensity ((stepOf (shiftModel b) ()).F *ᵥ (fun i => z (.inr i)) +
      (stepOf (shiftModel b) ()).c) ((stepOf (shiftModel b) ()).cholQ * ((stepOf (shiftModel b) ()).cholQ)ᵀ)
      (fun i => z (.inl i)) = -(1 / 2) * (z (.inl 0) - b) ^ 2 - 1 / 2 * Real.log (2 * Real.pi) := by
    intro b z
    rw [gaussLogDensity_unique]
    simp [stepOf, shiftModel]
  have hi : Integrable (fun z : Fin 1 ⊕ Fin 1 → ℝ => c * z (.inl 0) - c ^ 2 / 2) (gauss m L) :=
    (((memLp_gauss_coord m L (.inl 0)).integrable (by norm_num)).const_mul c).sub (integrable_const _)
  have hi0 : Integrable (fun z : Fin 1 ⊕ Fin 1 → ℝ => -(1 / 2) * (z (.inl 0) - 0) ^ 2 -
      1 / 2 * Real.log (2 * Real.pi)) (gauss m L) := by
    simp only [sub_zero]
    exact ((memLp_gauss_coord m L (.inl 0)).integrable_sq.const_mul _).sub (integrable_const _)
  simp only [expTransition, h]
  have e : ∀ z : Fin 1 ⊕ Fin 1 → ℝ, -(1 / 2) * (z (.inl 0) - c) ^ 2 - 1 / 2 * Real.log (2 * Real.pi) =
      (c * z (.inl 0) - c ^ 2 / 2) + (-(1 / 2) * (z (.inl 0) - 0) ^ 2 - 1 / 2 * Real.log (2 * Real.pi)) := fun z => by ring
  simp only [e]
  rw [integral_add hi hi0, integral_sub (((memLp_gauss_coord m L (.inl 0)).integrable (by norm_num)).const_mul c)
    (integrable_const _), integral_const_mul, integral_gauss_coord]
  simp

/-- **Finding.** With the recipe of the documentation an M-step can increase the objective and decrease the
likelihood: here the objective prefers the shift 5 to the shift 0, which is the maximum likelihood estimate. -/
theorem docs_em_recipe_fails (qr : QR) (rng rng' : Prng K) (parallel parallel' : Bool) (key key' : Option K)
    (opts : SmootherOpts 1 Unit) {filterStates filterStates' : List (FilterState 1 Unit)}
    (hf : (filter rng (buildFilter qr (shiftModel 0)) [(), ()] parallel key).result = .ok filterStates)
    (hf' : (filter rng (buildFilter qr (shiftModel 5)) [(), ()] parallel key).result = .ok filterStates')
    {states : List (SmootherState 1 Unit)}
    (hs : (smoother rng' FilterState.modelInputs (fun u => .ok (opts.dummy u))
        (buildSmoother qr (shiftModel 0).getDynamics opts) filterStates none parallel' key').result = .ok states)
    (q : ℕ → Smoothed 1) (hq : Reports states 1 q) :
    docsObjective (shiftModel 0) () [()] q < docsObjective (shiftModel 5) () [()] q ∧
      ∃ s s' l l', filterStates[1]? = some s ∧ filterStates'[1]? = some s' ∧ s.logNormalizingConstant = some l ∧
        s'.logNormalizingConstant = some l' ∧ l' < l := by
  have hev : ∀ c, jointExp ((shiftModel c).getInit ()).1 ((shiftModel c).getInit ()).2 ([()].map (stepOf (shiftModel c)))
      (fun _ => 1) = ENNReal.ofReal (Real.exp (kfAt (shiftModel c) () [()] 1).l) := by
    intro c
    obtain ⟨U, hU⟩ := kfAt_gram (shiftModel c) () [()] (fun u hu => (shiftModel_nondegenerate c [()]).obs u hu) 1
    have h := kfAt_exact (shiftModel c) () [()] (fun u hu => (shiftModel_nondegenerate c [()]).obs u hu) 1 le_rfl U hU.symm
      (φ := fun _ => 1) measurable_const
    simp only [lintegral_const, measure_univ, mul_one] at h
    exact h
  constructor
  · have hP : ∀ (t : ℕ) s L u, filterStates[t]? = some s → s.cholCov = some L → [()][t]? = some u →
        ((stepOf (shiftModel 0) u).F * (L * Lᵀ) * ((stepOf (shiftModel 0) u).F)ᵀ +
          (stepOf (shiftModel 0) u).cholQ * ((stepOf (shiftModel 0) u).cholQ)ᵀ).det ≠ 0 := by
      intro t s L u _ _ _
      simp [stepOf, shiftModel]
    obtain ⟨states', l, hst, -, hone, -⟩ := kalman_smoother_exact qr rng rng' (shiftModel 0) () [()] (by simp) parallel
      parallel' key key' opts (shiftModel_nondegenerate 0 [()]).obs filterStates hf hP none (.inl rfl)
    rw [hs] at hst
    obtain rfl := Except.ok.inj hst
    obtain ⟨s, m, L, hs0, hm, -, hall⟩ := hone 0 (Nat.zero_le _)
    obtain ⟨s₁, hs₁, hm₁, -⟩ := hq 0 (Nat.zero_le _)
    rw [hs0] at hs₁
    obtain rfl := Option.some.inj hs₁
    rw [hm] at hm₁
    -- the data say nothing about the initial state
    have hind : ∀ φ : (Fin 1 → ℝ) → ℝ≥0∞, Measurable φ →
        jointExp ((shiftModel 0).getInit ()).1 ((shiftModel 0).getInit ()).2 ([()].map (stepOf (shiftModel 0)))
          (fun p => φ (p 0)) = ENNReal.ofReal (Real.exp l) * ∫⁻ x, φ x ∂gauss (fun _ : Fin 1 => (5 : ℝ)) (1 : Matrix (Fin 1) (Fin 1) ℝ) := by
      intro φ hφ
      have h1 := hall (fun _ => 1) measurable_const
      simp only [lintegral_const, measure_univ, mul_one] at h1
      have hk : ∀ f : (ℕ → Fin 1 → ℝ) → ℝ≥0∞,
          jointExp ((shiftModel 0).getInit ()).1 ((shiftModel 0).getInit ()).2 ([()].map (stepOf (shiftModel 0))) f =
          ∫⁻ x, ∫⁻ x', (stepOf (shiftModel 0) ()).lik x' * f (pathCons x fun _ => x') ∂gauss (fun _ : Fin 1 => (0 : ℝ)) (1 : Matrix (Fin 1) (Fin 1) ℝ)
            ∂gauss (fun _ : Fin 1 => (5 : ℝ)) (1 : Matrix (Fin 1) (Fin 1) ℝ) := by
        intro f
        refine lintegral_congr fun x => ?_
        have h0 : (stepOf (shiftModel 0) ()).F *ᵥ x + (stepOf (shiftModel 0) ()).c = fun _ => 0 := by
          funext i; simp [stepOf, shiftModel]
        simp only [List.map_cons, List.map_nil, pathExp, h0]
        rfl
      rw [hk] at h1 ⊢
      simp only [mul_one, lintegral_const, measure_univ] at h1
      simp only [pathCons]
      have hl : Measurable (stepOf (shiftModel 0) ()).lik :=
        (measurable_gaussLogDensity_of _ ((measurable_mulVec _).add_const _) measurable_const).exp.ennreal_ofReal
      rw [← h1]
      simp only [lintegral_mul_const _ hl]
      rw [lintegral_const_mul _ hφ]
    have hgauss : gauss (fun _ : Fin 1 => (5 : ℝ)) (1 : Matrix (Fin 1) (Fin 1) ℝ) = gauss m L := by
      refine Measure.ext_of_lintegral _ fun φ hφ => ?_
      have h := (hind φ hφ).symm.trans (hall φ hφ)
      exact (ENNReal.mul_right_inj (by simp [Real.exp_pos]) ENNReal.ofReal_ne_top).mp h
    have hm5 : (q 0).m 0 = 5 := by
      rw [← Option.some.inj hm₁, ← integral_gauss_coord m L 0, ← hgauss, integral_gauss_coord]
    simp only [docsObjective, List.map_cons, List.map_nil, docsSteps]
    rw [shiftModel_transition 5]
    simp only [Sum.elim_inl, hm5]
    have e1 : ∀ μ, expObservation (stepOf (shiftModel 5) ()) μ = expObservation (stepOf (shiftModel 0) ()) μ := fun _ => rfl
    have e2 : (shiftModel 5).getInit () = (shiftModel 0).getInit () := rfl
    rw [e1, e2]
    linarith
  · obtain ⟨s, l, hsl, hl, he⟩ := evidence qr rng parallel key (shiftModel_nondegenerate 0 [()]) hf
    obtain ⟨s', l', hsl', hl', he'⟩ := evidence qr rng parallel key (shiftModel_nondegenerate 5 [()]) hf'
    refine ⟨s, s', l, l', hsl, hsl', hl, hl', ?_⟩
    rw [hev, ENNReal.ofReal_eq_ofReal_iff (Real.exp_nonneg _) (Real.exp_nonneg _)] at he he'
    rw [← Real.exp_injective he, ← Real.exp_injective he', shiftModel_l, shiftModel_l]
    linarith

/-! ## The objective by quadrature -/

open MvPolynomial in
/-- `log N(v; u, S)` of affine functions is a polynomial of degree two. -/
theorem gaussLogDensity_polynomial {n : ℕ} {ι : Type*} [Fintype ι] [DecidableEq ι] (S : Matrix ι ι ℝ)
    (A B : Matrix ι (Fin n) ℝ) (a b : ι → ℝ) :
    ∃ p : MvPolynomial (Fin n) ℝ, p.totalDegree ≤ 2 ∧
      ∀ x, eval x p = gaussLogDensity (A *ᵥ x + a) S (B *ᵥ x + b) := by
  obtain ⟨r, hr⟩ : ∃ r : ι → MvPolynomial (Fin n) ℝ, r = fun i => C (b i - a i) + ∑ j, C (B i j - A i j) * X j :=
    ⟨_, rfl⟩
  have hd : ∀ i, (r i).totalDegree ≤ 1 := by
    intro i
    rw [hr]
    refine (totalDegree_add _ _).trans (max_le ((totalDegree_C _).le.trans (by norm_num)) ?_)
    refine (totalDegree_finsetSum _ _).trans (Finset.sup_le fun j _ => ?_)
    refine (totalDegree_mul _ _).trans ?_
    rw [totalDegree_C, zero_add, totalDegree_X]
  have he : ∀ i x, eval x (r i) = (B *ᵥ x + b) i - (A *ᵥ x + a) i := by
    intro i x
    simp only [hr, map_add, map_sum, map_mul, eval_C, eval_X, Pi.add_apply, Matrix.mulVec, dotProduct, sub_mul,
      Finset.sum_sub_distrib]
    ring
  refine ⟨C (-(1 / 2)) * (∑ i, r i * ∑ j, C (S⁻¹ i j) * r j) -
    C (Fintype.card ι / 2 * Real.log (2 * Real.pi)) - C (1 / 2 * Real.log S.det), ?_, ?_⟩
  · refine (totalDegree_sub _ _).trans (max_le ((totalDegree_sub _ _).trans
      (max_le ?_ ((totalDegree_C _).le.trans (by norm_num)))) ((totalDegree_C _).le.trans (by norm_num)))
    refine (totalDegree_mul _ _).trans ?_
    rw [totalDegree_C, zero_add]
    refine (totalDegree_finsetSum _ _).trans (Finset.sup_le fun i _ => ?_)
    refine (totalDegree_mul _ _).trans (add_le_add (hd i) ?_ : _ ≤ 1 + 1)
    refine (totalDegree_finsetSum _ _).trans (Finset.sup_le fun j _ => ?_)
    refine (totalDegree_mul _ _).trans ?_
    rw [totalDegree_C, zero_add]
    exact hd j
  · intro x
    simp only [map_sub, map_mul, map_sum, eval_C, he, gaussLogDensity, dotProduct, Matrix.mulVec, Pi.sub_apply]

/-- **C95** (quadrature). Gauss-Hermite rules of order at least two compute the terms of the objective exactly:
expectations of `log N(B x + b; A x + a, S)` for `x` with the Gaussian law whose sigma points are taken. -/
theorem em_term_by_quadrature {n order : ℕ} (hg : Quadrature.Hermegauss order) (ho : 2 ≤ order) {ι : Type*} [Fintype ι]
    [DecidableEq ι] (S : Matrix ι ι ℝ) (A B : Matrix ι (Fin n) ℝ) (a b : ι → ℝ) (m : Fin n → ℝ)
    (L : Matrix (Fin n) (Fin n) ℝ) :
    ∑ k, ((Quadrature.gaussHermite hg n).getSigmaPoints m L).wm k *
      gaussLogDensity (A *ᵥ ((Quadrature.gaussHermite hg n).getSigmaPoints m L).points k + a) S
        (B *ᵥ ((Quadrature.gaussHermite hg n).getSigmaPoints m L).points k + b) =
      ∫ x, gaussLogDensity (A *ᵥ x + a) S (B *ᵥ x + b) ∂gauss m L := by
  obtain ⟨p, hp, he⟩ := gaussLogDensity_polynomial S A B a b
  have := Quadrature.gaussHermite_polynomial hg (by omega) m L p (by omega)
  simpa only [he] using this

end

end Cuthbert.Kalman
