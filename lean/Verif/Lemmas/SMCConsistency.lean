import Verif.Lemmas.SMCConcentrate

/-!
# Mean squared errors of the particle filter's estimates
-/

namespace Cuthbert.SMC
open MeasureTheory Set Resampling
open scoped ENNReal

noncomputable section

variable {K X Inp : Type} {N : ℕ}

section law

variable [MeasurableSpace K] [MeasurableSpace X] {P : Measure K} {rng : Rng K} {mdl : FKModel K X Inp}
  {I : K → (Fin N → Fl) → Fin N → Fin N} {L : K → (Fin N → Fl) → Fin N → Fl} {κ δ : ℝ≥0∞}

/-- The expectation of a function of the state, with the rest of the run integrated out. -/
theorem lintegral_runCore (h : IdealRng rng P) (hR : UnbiasedWeights P I L) {u0 : Inp}
    (h0 : Measurable fun k => mdl.initSample k u0) (us : List Inp) (t : ℕ) (hu : ∀ u' ∈ us, mdl.Regular u')
    {g : Core X N → ℝ≥0∞} (hg : Measurable g) :
    ∫⁻ k, g (coreAt rng.toPrng mdl I L us t (rng.nth k (us.length + 1) 0)
        (coreInit mdl u0 (rng.nth (rng.nth k (us.length + 1) 0) N))
        (Fin.tail (rng.nth k (us.length + 1)))) ∂P =
      ∫⁻ k, ∫⁻ keys, g (coreAt rng.toPrng mdl I L us t k (coreInit mdl u0 (rng.nth k N)) keys)
        ∂(Measure.pi fun _ => P) ∂P := by
  have := h.prob
  have h4 := hg.comp (measurable_runCore h hR h0 us t hu)
  refine ((h.split (us.length + 1)).lintegral_comp h4).trans ?_
  rw [lintegral_pi_cons P h4]
  rfl

/-- What a run has to satisfy for the bounds below. -/
structure RunBounds (rng : Rng K) (P : Measure K) (mdl : FKModel K X Inp) (I : K → (Fin N → Fl) → Fin N → Fin N)
    (L : K → (Fin N → Fl) → Fin N → Fl) (u0 : Inp) (us : List Inp) (B κ δ : ℝ≥0∞) : Prop where
  ideal : IdealRng rng P
  unbiased : UnbiasedWeights P I L
  concentrates : Concentrates P I L κ
  first : FirstStep rng.toPrng P I L δ
  inv_le : (N : ℝ≥0∞)⁻¹ ≤ δ
  init : Measurable fun k => mdl.initSample k u0
  regular : ∀ u' ∈ us, mdl.Regular u'
  bound : ∀ u ∈ us, ∀ x x', ENNReal.ofReal (mdl.logPotential x x' u).lik ≤ B
  dead : RevivesDead L ∨ ∀ u' ∈ us, ∀ x x', (mdl.logPotential x x' u').IsFin

variable [NeZero N] {u0 : Inp} {us : List Inp} {B : ℝ≥0∞}

theorem RunBounds.lintegral_sq_pathEst (hb : RunBounds rng P mdl I L u0 us B κ δ) (t : ℕ) (ht : t ≤ us.length)
    {f : (ℕ → X) → ℝ≥0∞} (hf : Measurable f) {c : ℝ≥0∞} (hfc : ∀ p, f p ≤ c) :
    ∫⁻ k, pathEst (pfRun rng.toPrng mdl I L u0 us k) t f ^ 2 ∂P ≤
      fkExp (mdl.init P u0) ((us.take t).map (mdl.step P)) f ^ 2 + (δ + 2 * κ * t) * (B ^ t * c) ^ 2 := by
  have := hb.ideal.prob
  have hf' : Measurable fun q : ℕ → X => f fun s => q (t - s) :=
    hf.comp (measurable_pi_iff.mpr fun s => measurable_pi_apply _)
  have hu' : ∀ u' ∈ us, (pathModel mdl).Regular u' := fun u' h' => pathModel_regular (hb.regular u' h')
  have h0' : Measurable fun k => (pathModel mdl).initSample k u0 := measurable_pi_iff.mpr fun _ => hb.init
  have hl : (us.take t).length = t := by simpa using ht
  simp only [pathEst_eq u0 us _ t ht]
  rw [lintegral_runCore hb.ideal hb.unbiased h0' us t hu' ((measurable_est hf').pow_const 2)]
  rw [← fkG_path_init (us.take t) hf (fun u' h' => hb.regular u' (List.mem_of_mem_take h')) hb.init, hl,
    ← fkG_take _ _ us t ht]
  exact lintegral_sq_run hb.ideal hb.unbiased hb.concentrates hb.first hb.inv_le h0' hf' (fun p => hfc _) us t ht hu'
    (fun u h x x' => hb.bound u h _ _) (hb.dead.imp_right fun h1 u' h' x x' => h1 u' h' _ _)

theorem RunBounds.le_lintegral_pathEst (hb : RunBounds rng P mdl I L u0 us B κ δ) (t : ℕ) (ht : t ≤ us.length)
    {f : (ℕ → X) → ℝ≥0∞} (hf : Measurable f) {c : ℝ≥0∞} (hfc : ∀ p, f p ≤ c) :
    fkExp (mdl.init P u0) ((us.take t).map (mdl.step P)) f ≤
      (∫⁻ k, pathEst (pfRun rng.toPrng mdl I L u0 us k) t f ∂P) + δ * (B ^ t * c) := by
  have := hb.ideal.prob
  have hf' : Measurable fun q : ℕ → X => f fun s => q (t - s) :=
    hf.comp (measurable_pi_iff.mpr fun s => measurable_pi_apply _)
  have hu' : ∀ u' ∈ us, (pathModel mdl).Regular u' := fun u' h' => pathModel_regular (hb.regular u' h')
  have h0' : Measurable fun k => (pathModel mdl).initSample k u0 := measurable_pi_iff.mpr fun _ => hb.init
  have hl : (us.take t).length = t := by simpa using ht
  simp only [pathEst_eq u0 us _ t ht]
  rw [lintegral_runCore hb.ideal hb.unbiased h0' us t hu' (measurable_est hf')]
  rw [← fkG_path_init (us.take t) hf (fun u' h' => hb.regular u' (List.mem_of_mem_take h')) hb.init, hl,
    ← fkG_take _ _ us t ht]
  exact le_lintegral_run hb.ideal hb.unbiased hb.first h0' hf' (fun p => hfc _) us t ht hu'
    (fun u h x x' => hb.bound u h _ _) (hb.dead.imp_right fun h1 u' h' x x' => h1 u' h' _ _)

omit [NeZero N] in
theorem RunBounds.fkExp_le (hb : RunBounds rng P mdl I L u0 us B κ δ) (t : ℕ) (ht : t ≤ us.length)
    {f : (ℕ → X) → ℝ≥0∞} (hf : Measurable f) {c : ℝ≥0∞} (hfc : ∀ p, f p ≤ c) :
    fkExp (mdl.init P u0) ((us.take t).map (mdl.step P)) f ≤ B ^ t * c := by
  have := hb.ideal.prob
  have h0' : Measurable fun k => (pathModel mdl).initSample k u0 := measurable_pi_iff.mpr fun _ => hb.init
  have hl : (us.take t).length = t := by simpa using ht
  rw [← fkG_path_init (us.take t) hf (fun u' h' => hb.regular u' (List.mem_of_mem_take h')) hb.init, hl]
  have h1 : IsProbabilityMeasure ((pathModel mdl).init P u0) := Measure.isProbabilityMeasure_map h0'.aemeasurable
  refine (lintegral_mono fun x => fkG_le (P := P) (mdl := pathModel mdl) (B := B) (fun q => hfc _) (us.take t) t hl.ge
    (fun u h x x' => hb.bound u (List.mem_of_mem_take h) _ _) x).trans_eq ?_
  rw [lintegral_const, measure_univ, mul_one]

omit [NeZero N] [MeasurableSpace K] [MeasurableSpace X] in
theorem pathEst_ne_top (S : ℕ → PFState K X Inp N) (t : ℕ) {f : (ℕ → X) → ℝ≥0∞} (hf : ∀ p, f p ≠ ⊤) :
    pathEst S t f ≠ ⊤ :=
  ENNReal.mul_ne_top ENNReal.ofReal_ne_top (ENNReal.sum_ne_top.mpr fun _ _ =>
    ENNReal.mul_ne_top ENNReal.ofReal_ne_top (hf _))

theorem ofReal_sub_sq {y g : ℝ≥0∞} (hy : y ≠ ⊤) (hg : g ≠ ⊤) :
    ENNReal.ofReal ((y.toReal - g.toReal) ^ 2) + 2 * g * y = y ^ 2 + g ^ 2 := by
  obtain ⟨a, ha⟩ : ∃ a, a = y.toReal := ⟨_, rfl⟩
  obtain ⟨b, hb⟩ : ∃ b, b = g.toReal := ⟨_, rfl⟩
  have ha0 : 0 ≤ a := ha ▸ ENNReal.toReal_nonneg
  have hb0 : 0 ≤ b := hb ▸ ENNReal.toReal_nonneg
  have h1 : y = ENNReal.ofReal a := by rw [ha, ENNReal.ofReal_toReal hy]
  have h2 : g = ENNReal.ofReal b := by rw [hb, ENNReal.ofReal_toReal hg]
  rw [← ha, ← hb, h1, h2, ← ENNReal.ofReal_pow ha0, ← ENNReal.ofReal_pow hb0,
    show (2 : ℝ≥0∞) = ENNReal.ofReal 2 by simp, ← ENNReal.ofReal_mul (by norm_num), ← ENNReal.ofReal_mul (by positivity),
    ← ENNReal.ofReal_add (by positivity) (by positivity), ← ENNReal.ofReal_add (by positivity) (by positivity)]
  congr 1
  ring

/-- The mean squared error of an estimate. -/
theorem RunBounds.mse (hb : RunBounds rng P mdl I L u0 us B κ δ) (hB : B ≠ ⊤) (hδ : δ ≠ ⊤) (hκ : κ ≠ ⊤) (t : ℕ)
    (ht : t ≤ us.length) {f : (ℕ → X) → ℝ≥0∞} (hf : Measurable f) {c : ℝ≥0∞} (hc : c ≠ ⊤) (hfc : ∀ p, f p ≤ c) :
    ∫⁻ k, ENNReal.ofReal (((pathEst (pfRun rng.toPrng mdl I L u0 us k) t f).toReal -
        (fkExp (mdl.init P u0) ((us.take t).map (mdl.step P)) f).toReal) ^ 2) ∂P ≤
      (3 * δ + 2 * κ * t) * (B ^ t * c) ^ 2 := by
  have := hb.ideal.prob
  obtain ⟨g, hg⟩ : ∃ g, g = fkExp (mdl.init P u0) ((us.take t).map (mdl.step P)) f := ⟨_, rfl⟩
  obtain ⟨Y, hY⟩ : ∃ Y : K → ℝ≥0∞, Y = fun k => pathEst (pfRun rng.toPrng mdl I L u0 us k) t f := ⟨_, rfl⟩
  have hM : B ^ t * c ≠ ⊤ := ENNReal.mul_ne_top (ENNReal.pow_ne_top hB) hc
  have h1 : ∫⁻ k, Y k ^ 2 ∂P ≤ g ^ 2 + (δ + 2 * κ * t) * (B ^ t * c) ^ 2 := by
    rw [hY, hg]
    exact hb.lintegral_sq_pathEst t ht hf hfc
  have h2 : g ≤ (∫⁻ k, Y k ∂P) + δ * (B ^ t * c) := by
    rw [hY, hg]
    exact hb.le_lintegral_pathEst t ht hf hfc
  have h3 : g ≤ B ^ t * c := by
    rw [hg]
    exact hb.fkExp_le t ht hf hfc
  have hgt : g ≠ ⊤ := ne_top_of_le_ne_top hM h3
  have hYt : ∀ k, Y k ≠ ⊤ := by
    rw [hY]
    exact fun k => pathEst_ne_top _ _ fun p => ne_top_of_le_ne_top hc (hfc p)
  have hYm : Measurable Y := by
    rw [hY]
    exact measurable_pathEst hb.ideal hb.unbiased hb.init us hb.regular t ht hf
  have h4 : ∀ k, ENNReal.ofReal (((Y k).toReal - g.toReal) ^ 2) + 2 * g * Y k = Y k ^ 2 + g ^ 2 := fun k =>
    ofReal_sub_sq (hYt k) hgt
  have h5 : ∫⁻ k, Y k ∂P ≠ ⊤ := by
    refine ne_top_of_le_ne_top (b := ∫⁻ k, 1 + Y k ^ 2 ∂P) ?_ (lintegral_mono fun k => ?_)
    · rw [lintegral_add_left measurable_const, lintegral_const, measure_univ, mul_one]
      refine ENNReal.add_ne_top.mpr ⟨ENNReal.one_ne_top, ne_top_of_le_ne_top ?_ h1⟩
      refine ENNReal.add_ne_top.mpr ⟨ENNReal.pow_ne_top hgt, ENNReal.mul_ne_top (ENNReal.add_ne_top.mpr ⟨hδ, ?_⟩)
        (ENNReal.pow_ne_top hM)⟩
      exact ENNReal.mul_ne_top (ENNReal.mul_ne_top (by norm_num) hκ) (by simp)
    · rcases le_total (Y k) 1 with h6 | h6
      · exact h6.trans le_self_add
      · refine le_add_left ?_
        rw [sq]
        exact le_mul_of_one_le_right' h6
  have h6 : (∫⁻ k, ENNReal.ofReal (((Y k).toReal - g.toReal) ^ 2) ∂P) + 2 * g * ∫⁻ k, Y k ∂P =
      (∫⁻ k, Y k ^ 2 ∂P) + g ^ 2 := by
    rw [← lintegral_const_mul _ hYm, ← lintegral_add_right _ (hYm.const_mul _)]
    simp only [h4]
    rw [lintegral_add_right _ measurable_const, lintegral_const, measure_univ, mul_one]
  have h7 : (∫⁻ k, ENNReal.ofReal (((Y k).toReal - g.toReal) ^ 2) ∂P) + 2 * g * ∫⁻ k, Y k ∂P ≤
      (3 * δ + 2 * κ * t) * (B ^ t * c) ^ 2 + 2 * g * ∫⁻ k, Y k ∂P := by
    rw [h6]
    calc _ ≤ g ^ 2 + (δ + 2 * κ * t) * (B ^ t * c) ^ 2 + g ^ 2 := by gcongr
      _ = 2 * g * g + (δ + 2 * κ * t) * (B ^ t * c) ^ 2 := by ring
      _ ≤ 2 * g * ((∫⁻ k, Y k ∂P) + δ * (B ^ t * c)) + (δ + 2 * κ * t) * (B ^ t * c) ^ 2 := by gcongr
      _ = 2 * g * (∫⁻ k, Y k ∂P) + 2 * g * (δ * (B ^ t * c)) + (δ + 2 * κ * t) * (B ^ t * c) ^ 2 := by ring
      _ ≤ 2 * g * (∫⁻ k, Y k ∂P) + 2 * (B ^ t * c) * (δ * (B ^ t * c)) + (δ + 2 * κ * t) * (B ^ t * c) ^ 2 := by
          gcongr
      _ = _ := by ring
  have h8 := ENNReal.le_of_add_le_add_right
    (ENNReal.mul_ne_top (ENNReal.mul_ne_top (by norm_num) hgt) h5) h7
  rw [hY, hg] at h8
  exact h8

/-! ### Averages -/

omit [NeZero N] [MeasurableSpace K] [MeasurableSpace X] in
theorem average_eq (S : ℕ → PFState K X Inp N) (t : ℕ) (f : (ℕ → X) → ℝ) :
    (S t).logZ.lik * average S t f = (pathEst S t fun p => ENNReal.ofReal (f p)).toReal -
      (pathEst S t fun p => ENNReal.ofReal (-f p)).toReal := by
  have key : ∀ g : (ℕ → X) → ℝ, (pathEst S t fun p => ENNReal.ofReal (g p)).toReal = (S t).logZ.lik *
      ∑ i, nw (S t).logWeights i *
        max (g (ancestralPath (fun s => (S s).particles) (fun s => (S s).ancestors) t i)) 0 := by
    intro g
    rw [pathEst, ENNReal.toReal_mul, ENNReal.toReal_ofReal (Fl.lik_nonneg _), ENNReal.toReal_sum fun i _ =>
      ENNReal.mul_ne_top ENNReal.ofReal_ne_top ENNReal.ofReal_ne_top]
    congr 1
    refine Finset.sum_congr rfl fun i _ => ?_
    rw [ENNReal.toReal_mul, ENNReal.toReal_ofReal (nw_nonneg _ i), ENNReal.toReal_ofReal']
  rw [key f, key fun p => -f p, ← mul_sub, ← Finset.sum_sub_distrib, average]
  congr 1
  refine Finset.sum_congr rfl fun i _ => ?_
  rw [← mul_sub]
  congr 1
  rcases le_total 0 (f (ancestralPath (fun s => (S s).particles) (fun s => (S s).ancestors) t i)) with h | h
  · rw [max_eq_left h, max_eq_right (by linarith), sub_zero]
  · rw [max_eq_right h, max_eq_left (by linarith)]
    ring

omit [NeZero N] [MeasurableSpace K] [MeasurableSpace X] in
theorem abs_average_le (S : ℕ → PFState K X Inp N) (t : ℕ) {f : (ℕ → X) → ℝ} {c : ℝ} (hc : 0 ≤ c)
    (hf : ∀ p, |f p| ≤ c) : |average S t f| ≤ c := by
  rw [average]
  refine (Finset.abs_sum_le_sum_abs _ _).trans ?_
  calc _ ≤ ∑ i, nw (S t).logWeights i * c := by
        refine Finset.sum_le_sum fun i _ => ?_
        rw [abs_mul, abs_of_nonneg (nw_nonneg _ i)]
        exact mul_le_mul_of_nonneg_left (hf _) (nw_nonneg _ i)
    _ ≤ 1 * c := by
        rw [← Finset.sum_mul]
        refine mul_le_mul_of_nonneg_right ?_ hc
        unfold nw
        rw [← Finset.sum_div]
        exact div_self_le_one _
    _ = c := one_mul c

theorem RunBounds.pathEst_one (hb : RunBounds rng P mdl I L u0 us B κ δ) (t : ℕ) (ht : t ≤ us.length) (k : K) :
    pathEst (pfRun rng.toPrng mdl I L u0 us k) t (fun _ => 1) =
      ENNReal.ofReal (pfRun rng.toPrng mdl I L u0 us k t).logZ.lik := by
  have hg := pfRun_good (rng := rng.toPrng) (mdl := mdl) (I := I) hb.unbiased.isLogits u0 us k
    (fun u h => (hb.regular u h).isLog) hb.dead t ht
  exact est_one (X := X) hg

/-- The mean squared error of `exp(log_normalizing_constant)`. -/
theorem RunBounds.mse_evidence (hb : RunBounds rng P mdl I L u0 us B κ δ) (hB : B ≠ ⊤) (hδ : δ ≠ ⊤) (hκ : κ ≠ ⊤)
    (t : ℕ) (ht : t ≤ us.length) :
    ∫⁻ k, ENNReal.ofReal (((pfRun rng.toPrng mdl I L u0 us k t).logZ.lik -
        (fkExp (mdl.init P u0) ((us.take t).map (mdl.step P)) fun _ => 1).toReal) ^ 2) ∂P ≤
      (3 * δ + 2 * κ * t) * (B ^ t) ^ 2 := by
  have h1 := hb.mse hB hδ hκ t ht (f := fun _ => 1) measurable_const ENNReal.one_ne_top fun _ => le_rfl
  simp only [hb.pathEst_one t ht, ENNReal.toReal_ofReal (Fl.lik_nonneg _), mul_one] at h1
  exact h1

/-- The mean squared error of a weighted average. -/
theorem RunBounds.mse_average (hb : RunBounds rng P mdl I L u0 us B κ δ) (hB : B ≠ ⊤) (hδ : δ ≠ ⊤) (hκ : κ ≠ ⊤)
    (t : ℕ) (ht : t ≤ us.length) {f : (ℕ → X) → ℝ} (hf : Measurable f) {c : ℝ} (hc : 0 ≤ c) (hfc : ∀ p, |f p| ≤ c)
    {z : ℝ} (hz : z = (fkExp (mdl.init P u0) ((us.take t).map (mdl.step P)) fun _ => 1).toReal) (hz0 : 0 < z) :
    ∫⁻ k, ENNReal.ofReal ((average (pfRun rng.toPrng mdl I L u0 us k) t f -
        fkMean (mdl.init P u0) ((us.take t).map (mdl.step P)) f) ^ 2) ∂P ≤
      9 * ((3 * δ + 2 * κ * t) * (B ^ t * ENNReal.ofReal (c / z)) ^ 2) := by
  obtain ⟨S, hS⟩ : ∃ S : K → ℕ → PFState K X Inp N, S = fun k => pfRun rng.toPrng mdl I L u0 us k := ⟨_, rfl⟩
  obtain ⟨fp, hfp⟩ : ∃ fp : (ℕ → X) → ℝ≥0∞, fp = fun p => ENNReal.ofReal (f p) := ⟨_, rfl⟩
  obtain ⟨fm, hfm⟩ : ∃ fm : (ℕ → X) → ℝ≥0∞, fm = fun p => ENNReal.ofReal (-f p) := ⟨_, rfl⟩
  obtain ⟨a, ha⟩ : ∃ a, a = fkExp (mdl.init P u0) ((us.take t).map (mdl.step P)) fp := ⟨_, rfl⟩
  obtain ⟨b, hbb⟩ : ∃ b, b = fkExp (mdl.init P u0) ((us.take t).map (mdl.step P)) fm := ⟨_, rfl⟩
  have mp : Measurable fp := by rw [hfp]; exact ENNReal.measurable_ofReal.comp hf
  have mm : Measurable fm := by rw [hfm]; exact ENNReal.measurable_ofReal.comp hf.neg
  have e0 := hb.mse_evidence hB hδ hκ t ht
  have e1 := hb.mse hB hδ hκ t ht mp (c := ENNReal.ofReal c) ENNReal.ofReal_ne_top fun p => by
    rw [hfp]; exact ENNReal.ofReal_le_ofReal ((le_abs_self _).trans (hfc p))
  have e2 := hb.mse hB hδ hκ t ht mm (c := ENNReal.ofReal c) ENNReal.ofReal_ne_top fun p => by
    rw [hfm]; exact ENNReal.ofReal_le_ofReal ((neg_le_abs _).trans (hfc p))
  rw [← hz] at e0
  rw [← ha] at e1
  rw [← hbb] at e2
  have hrun : ∀ k, pfRun rng.toPrng mdl I L u0 us k = S k := fun k => by rw [hS]
  simp only [hrun] at e0 e1 e2 ⊢
  have m1 : Measurable fun k => ENNReal.ofReal (((pathEst (S k) t fp).toReal - a.toReal) ^ 2) := by
    rw [hS]
    exact ENNReal.measurable_ofReal.comp (((measurable_pathEst hb.ideal hb.unbiased hb.init us hb.regular t ht
      mp).ennreal_toReal.sub_const _).pow_const 2)
  have m2 : Measurable fun k => ENNReal.ofReal (((pathEst (S k) t fm).toReal - b.toReal) ^ 2) := by
    rw [hS]
    exact ENNReal.measurable_ofReal.comp (((measurable_pathEst hb.ideal hb.unbiased hb.init us hb.regular t ht
      mm).ennreal_toReal.sub_const _).pow_const 2)
  have hpt : ∀ k, ENNReal.ofReal ((average (S k) t f -
        fkMean (mdl.init P u0) ((us.take t).map (mdl.step P)) f) ^ 2) ≤
      ENNReal.ofReal (3 / z ^ 2) * (ENNReal.ofReal (c ^ 2) * ENNReal.ofReal (((S k t).logZ.lik - z) ^ 2) +
        ENNReal.ofReal (((pathEst (S k) t fp).toReal - a.toReal) ^ 2) +
        ENNReal.ofReal (((pathEst (S k) t fm).toReal - b.toReal) ^ 2)) := by
    intro k
    rw [← ENNReal.ofReal_mul (by positivity), ← ENNReal.ofReal_add (by positivity) (by positivity),
      ← ENNReal.ofReal_add (by positivity) (by positivity), ← ENNReal.ofReal_mul (by positivity)]
    refine ENNReal.ofReal_le_ofReal ?_
    have h1 := average_eq (S k) t f
    rw [← hfp, ← hfm] at h1
    have h2 := abs_average_le (S k) t hc hfc
    have h3 : fkMean (mdl.init P u0) ((us.take t).map (mdl.step P)) f = (a.toReal - b.toReal) / z := by
      rw [fkMean, ← hfp, ← hfm, ← ha, ← hbb, ← hz]
    rw [h3]
    have h5 : average (S k) t f ^ 2 ≤ c ^ 2 := by
      rw [← sq_abs]
      exact pow_le_pow_left₀ (abs_nonneg _) h2 2
    obtain ⟨v, hv⟩ : ∃ v, v = average (S k) t f := ⟨_, rfl⟩
    obtain ⟨Z, hZ⟩ : ∃ Z, Z = (S k t).logZ.lik := ⟨_, rfl⟩
    obtain ⟨A, hA⟩ : ∃ A, A = (pathEst (S k) t fp).toReal := ⟨_, rfl⟩
    obtain ⟨D, hD⟩ : ∃ D, D = (pathEst (S k) t fm).toReal := ⟨_, rfl⟩
    rw [← hv] at h5 h1 ⊢
    rw [← hZ] at h1 ⊢
    rw [← hA, ← hD] at h1 ⊢
    have h6 : v - (a.toReal - b.toReal) / z =
        ((A - a.toReal) - (D - b.toReal) - v * (Z - z)) / z := by
      field_simp
      linarith
    rw [h6, div_pow, div_mul_eq_mul_div]
    refine div_le_div_of_nonneg_right ?_ (by positivity)
    have h7 : v ^ 2 * (Z - z) ^ 2 ≤ c ^ 2 * (Z - z) ^ 2 := mul_le_mul_of_nonneg_right h5 (sq_nonneg _)
    nlinarith [sq_nonneg ((A - a.toReal) + (D - b.toReal)), sq_nonneg ((A - a.toReal) + v * (Z - z)),
      sq_nonneg ((D - b.toReal) - v * (Z - z))]
  refine (lintegral_mono hpt).trans ?_
  rw [lintegral_const_mul' _ _ ENNReal.ofReal_ne_top, lintegral_add_right _ m2, lintegral_add_right _ m1,
    lintegral_const_mul' _ _ ENNReal.ofReal_ne_top]
  calc _ ≤ ENNReal.ofReal (3 / z ^ 2) * (ENNReal.ofReal (c ^ 2) * ((3 * δ + 2 * κ * t) * (B ^ t) ^ 2) +
          (3 * δ + 2 * κ * t) * (B ^ t * ENNReal.ofReal c) ^ 2 +
          (3 * δ + 2 * κ * t) * (B ^ t * ENNReal.ofReal c) ^ 2) := by gcongr
    _ = _ := by
        have h1 : ENNReal.ofReal (3 / z ^ 2) = 3 * ENNReal.ofReal (1 / z) ^ 2 := by
          rw [← ENNReal.ofReal_pow (by positivity), show (3 : ℝ≥0∞) = ENNReal.ofReal 3 by simp,
            ← ENNReal.ofReal_mul (by norm_num)]
          congr 1
          field_simp
        have h2 : ENNReal.ofReal (c / z) = ENNReal.ofReal c * ENNReal.ofReal (1 / z) := by
          rw [← ENNReal.ofReal_mul hc]
          congr 1
          ring
        rw [h1, h2, ENNReal.ofReal_pow hc]
        ring

end law

end

end Cuthbert.SMC
