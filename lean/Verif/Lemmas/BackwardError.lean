import Verif.Lemmas.BackwardVariance
import Verif.Props.TracingConsistency

/-!
# Mean squared errors of backward sampling
-/

namespace Cuthbert.SMC
open MeasureTheory Set Resampling Spec
open scoped ENNReal

noncomputable section

variable {K X Inp : Type} {N n : ℕ}

section mean

variable [MeasurableSpace K] [NeZero N] {P : Measure K} {rng : Rng K}

/-- The expectation of a function of the path that backward sampling gives for particle `i` at time `t`. -/
def backMean (P : Measure K) (rng : Rng K) (ld : ℕ → X → X → Fl) (H : ℕ → Core X N) (t : ℕ) (f : (ℕ → X) → ℝ)
    (i : Fin N) : ℝ :=
  (backExp P rng ld H t i fun p => ENNReal.ofReal (f p)).toReal -
    (backExp P rng ld H t i fun p => ENNReal.ofReal (-f p)).toReal

/-- Its average over the particles. -/
def backAvg (P : Measure K) (rng : Rng K) (ld : ℕ → X → X → Fl) (H : ℕ → Core X N) (t : ℕ) (f : (ℕ → X) → ℝ) : ℝ :=
  ∑ i, nw (H t).2.1 i * backMean P rng ld H t f i

variable (h : IdealRng rng P) {ld : ℕ → X → X → Fl} {H : ℕ → Core X N} {t : ℕ} {f : (ℕ → X) → ℝ} {c : ℝ}

include h

theorem backExp_pos_le (hf : ∀ p, |f p| ≤ c) (i : Fin N) :
    backExp P rng ld H t i (fun p => ENNReal.ofReal (f p)) ≤ ENNReal.ofReal c :=
  backExp_le h ld H (fun p => ENNReal.ofReal_le_ofReal ((le_abs_self _).trans (hf p))) t i

theorem backExp_neg_le (hf : ∀ p, |f p| ≤ c) (i : Fin N) :
    backExp P rng ld H t i (fun p => ENNReal.ofReal (-f p)) ≤ ENNReal.ofReal c :=
  backExp_le h ld H (fun p => ENNReal.ofReal_le_ofReal ((neg_le_abs _).trans (hf p))) t i

theorem abs_backMean_le (hf : ∀ p, |f p| ≤ c) (i : Fin N) : |backMean P rng ld H t f i| ≤ c := by
  have hc : 0 ≤ c := (abs_nonneg _).trans (hf fun _ => (H 0).1 i)
  have h1 := ENNReal.toReal_mono ENNReal.ofReal_ne_top (backExp_pos_le (ld := ld) (H := H) (t := t) h hf i)
  have h2 := ENNReal.toReal_mono ENNReal.ofReal_ne_top (backExp_neg_le (ld := ld) (H := H) (t := t) h hf i)
  rw [ENNReal.toReal_ofReal hc] at h1 h2
  rw [backMean, abs_le]
  constructor
  · linarith [ENNReal.toReal_nonneg (a := backExp P rng ld H t i fun p => ENNReal.ofReal (f p))]
  · linarith [ENNReal.toReal_nonneg (a := backExp P rng ld H t i fun p => ENNReal.ofReal (-f p))]

/-- Shifting by a constant. -/
theorem backExp_shift (hf : ∀ p, |f p| ≤ c) (i : Fin N) :
    (backExp P rng ld H t i fun p => ENNReal.ofReal (f p + c)).toReal = backMean P rng ld H t f i + c := by
  have hc : 0 ≤ c := (abs_nonneg _).trans (hf fun _ => (H 0).1 i)
  have h1 : ∀ p, ENNReal.ofReal (f p + c) + ENNReal.ofReal (-f p) = ENNReal.ofReal (f p) + ENNReal.ofReal c := by
    intro p
    have h2 := abs_le.mp (hf p)
    rcases le_total 0 (f p) with h3 | h3
    · rw [ENNReal.ofReal_of_nonpos (by linarith : -f p ≤ 0), add_zero, ENNReal.ofReal_add h3 hc]
    · rw [ENNReal.ofReal_of_nonpos h3, zero_add, ← ENNReal.ofReal_add (by linarith) (by linarith)]
      congr 1
      ring
  have h2 := backExp_add (P := P) (rng := rng) ld H t i (fun p => ENNReal.ofReal (f p + c)) fun p => ENNReal.ofReal (-f p)
  have h3 := backExp_add (P := P) (rng := rng) ld H t i (fun p => ENNReal.ofReal (f p)) fun _ => ENNReal.ofReal c
  simp only [h1] at h2
  rw [h3, backExp_const h] at h2
  have t1 := ne_top_of_le_ne_top ENNReal.ofReal_ne_top (backExp_pos_le (ld := ld) (H := H) (t := t) h hf i)
  have t2 := ne_top_of_le_ne_top ENNReal.ofReal_ne_top (backExp_neg_le (ld := ld) (H := H) (t := t) h hf i)
  have t3 : backExp P rng ld H t i (fun p => ENNReal.ofReal (f p + c)) ≠ ⊤ :=
    ne_top_of_le_ne_top (b := ENNReal.ofReal (2 * c)) ENNReal.ofReal_ne_top (backExp_le h ld H (fun p =>
      ENNReal.ofReal_le_ofReal (by linarith [(abs_le.mp (hf p)).2])) t i)
  have h4 := congrArg ENNReal.toReal h2
  rw [ENNReal.toReal_add t1 ENNReal.ofReal_ne_top, ENNReal.toReal_add t3 t2, ENNReal.toReal_ofReal hc] at h4
  rw [backMean]
  linarith

theorem histEst_ne_top {ψ : (ℕ → X) → ℝ≥0∞} {c : ℝ≥0∞} (hc : c ≠ ⊤) (hψ : ∀ p, ψ p ≤ c) :
    histEst P rng ld H t ψ ≠ ⊤ :=
  ENNReal.mul_ne_top ENNReal.ofReal_ne_top (ENNReal.sum_ne_top.mpr fun i _ => ENNReal.mul_ne_top ENNReal.ofReal_ne_top
    (ne_top_of_le_ne_top hc (backExp_le h ld H hψ t i)))

theorem histEst_one {d : Prop} (hg : Good d (H t)) :
    histEst P rng ld H t (fun _ => 1) = ENNReal.ofReal (H t).2.2.lik := by
  rw [histEst]
  simp only [backExp_const h]
  exact est_one hg

theorem backAvg_eq (hf : ∀ p, |f p| ≤ c) : (H t).2.2.lik * backAvg P rng ld H t f =
    (histEst P rng ld H t fun p => ENNReal.ofReal (f p)).toReal -
      (histEst P rng ld H t fun p => ENNReal.ofReal (-f p)).toReal := by
  have t1 := fun i => ne_top_of_le_ne_top ENNReal.ofReal_ne_top (backExp_pos_le (ld := ld) (H := H) (t := t) h hf i)
  have t2 := fun i => ne_top_of_le_ne_top ENNReal.ofReal_ne_top (backExp_neg_le (ld := ld) (H := H) (t := t) h hf i)
  rw [histEst, histEst, ENNReal.toReal_mul, ENNReal.toReal_mul, ENNReal.toReal_ofReal (Fl.lik_nonneg _),
    ENNReal.toReal_sum fun i _ => ENNReal.mul_ne_top ENNReal.ofReal_ne_top (t1 i),
    ENNReal.toReal_sum fun i _ => ENNReal.mul_ne_top ENNReal.ofReal_ne_top (t2 i), ← mul_sub,
    ← Finset.sum_sub_distrib, backAvg]
  congr 1
  refine Finset.sum_congr rfl fun i _ => ?_
  rw [ENNReal.toReal_mul, ENNReal.toReal_mul, ENNReal.toReal_ofReal (nw_nonneg _ i), backMean]
  ring

end mean

/-! ### The filter -/

section run

variable [MeasurableSpace K] [MeasurableSpace X] {P : Measure K} {rng : Rng K}
  {mdl : FKModel K X Inp} {I : K → (Fin N → Fl) → Fin N → Fin N} {L : K → (Fin N → Fl) → Fin N → Fl}
  {κ B : ℝ≥0∞} [NeZero N] {u0 : Inp} {us : List Inp} {ld : ℕ → X → X → Fl}

/-- What a run has to satisfy for the bounds below. -/
structure BackBounds (rng : Rng K) (P : Measure K) (mdl : FKModel K X Inp) (I : K → (Fin N → Fl) → Fin N → Fin N)
    (L : K → (Fin N → Fl) → Fin N → Fl) (u0 : Inp) (us : List Inp) (ld : ℕ → X → X → Fl) (B κ : ℝ≥0∞) : Prop where
  run : RunBounds rng P mdl I L u0 us B κ ((N : ℝ≥0∞)⁻¹ + 2 * κ)
  indep : IndepSplit rng.toPrng P
  density : ∀ s (hs : s < us.length), BackwardDensity (mdl.step P us[s]) (ld s)

/-- The mean squared error of an unnormalised estimate. -/
theorem BackBounds.mse (hb : BackBounds rng P mdl I L u0 us ld B κ) (hB : B ≠ ⊤) {ψ : (ℕ → X) → ℝ≥0∞} {c : ℝ≥0∞}
    (hψ : Measurable ψ) (hc : c ≠ ⊤) (hψc : ∀ p, ψ p ≤ c) :
    ∫⁻ k, ENNReal.ofReal (((histEst P rng ld (fun t => (pfRun rng.toPrng mdl I L u0 us k t).core) us.length ψ).toReal -
        (fkExp (mdl.init P u0) (us.map (mdl.step P)) ψ).toReal) ^ 2) ∂P ≤
      ((N : ℝ≥0∞)⁻¹ + 2 * κ * us.length) * (B ^ us.length * c) ^ 2 := by
  have := hb.run.ideal.prob
  obtain ⟨h1, h2⟩ := lintegral_sq_histEst_run hb.run.ideal hb.run.unbiased hb.run.concentrates hb.indep hb.run.init hψ hψc us
    hb.run.regular hb.run.bound hb.density hb.run.dead
  have h3 := hb.run.fkExp_le us.length le_rfl hψ hψc
  rw [List.take_length] at h3
  exact mse_of_second h1 (fun k => histEst_ne_top hb.run.ideal hc hψc)
    (ne_top_of_le_ne_top (ENNReal.mul_ne_top (ENNReal.pow_ne_top hB) hc) h3)
    (lintegral_histEst_run hb.run.ideal hb.run.unbiased hb.indep hb.run.init hψ us hb.run.regular hb.density hb.run.dead) h2

/-- The mean squared error of `exp(log_normalizing_constant)`. -/
theorem BackBounds.mse_evidence (hb : BackBounds rng P mdl I L u0 us ld B κ) (hB : B ≠ ⊤) :
    Measurable (fun k => (pfRun rng.toPrng mdl I L u0 us k us.length).logZ.lik) ∧
    ∫⁻ k, ENNReal.ofReal (((pfRun rng.toPrng mdl I L u0 us k us.length).logZ.lik -
        (fkExp (mdl.init P u0) (us.map (mdl.step P)) fun _ => 1).toReal) ^ 2) ∂P ≤
      ((N : ℝ≥0∞)⁻¹ + 2 * κ * us.length) * (B ^ us.length) ^ 2 := by
  have h1 := hb.mse hB (ψ := fun _ => 1) measurable_const ENNReal.one_ne_top fun _ => le_rfl
  have h2 : ∀ k, histEst P rng ld (fun t => (pfRun rng.toPrng mdl I L u0 us k t).core) us.length (fun _ => 1) =
      ENNReal.ofReal (pfRun rng.toPrng mdl I L u0 us k us.length).logZ.lik := fun k =>
    histEst_one hb.run.ideal (pfRun_good (rng := rng.toPrng) (mdl := mdl) (I := I) hb.run.unbiased.isLogits u0 us k
      (fun u h => (hb.run.regular u h).isLog) hb.run.dead us.length le_rfl)
  have h3 := (lintegral_sq_histEst_run hb.run.ideal hb.run.unbiased hb.run.concentrates hb.indep hb.run.init
    (ψ := fun _ => 1) measurable_const (fun _ => le_rfl) us hb.run.regular hb.run.bound hb.density
    hb.run.dead).1.ennreal_toReal
  simp only [h2, ENNReal.toReal_ofReal (Fl.lik_nonneg _), mul_one] at h1 h3
  exact ⟨h3, h1⟩

/-- The mean squared error of the average over the particles. -/
theorem BackBounds.mse_average (hb : BackBounds rng P mdl I L u0 us ld B κ) (hB : B ≠ ⊤)
    {f : (ℕ → X) → ℝ} (hf : Measurable f) {c : ℝ} (hc : 0 ≤ c) (hfc : ∀ p, |f p| ≤ c)
    {z : ℝ} (hz : z = (fkExp (mdl.init P u0) (us.map (mdl.step P)) fun _ => 1).toReal) (hz0 : 0 < z) :
    ∫⁻ k, ENNReal.ofReal ((backAvg P rng ld (fun t => (pfRun rng.toPrng mdl I L u0 us k t).core) us.length f -
        fkMean (mdl.init P u0) (us.map (mdl.step P)) f) ^ 2) ∂P ≤
      9 * (((N : ℝ≥0∞)⁻¹ + 2 * κ * us.length) * (B ^ us.length * ENNReal.ofReal (c / z)) ^ 2) := by
  obtain ⟨S, hS⟩ : ∃ S : K → ℕ → Core X N, S = fun k t => (pfRun rng.toPrng mdl I L u0 us k t).core := ⟨_, rfl⟩
  obtain ⟨fp, hfp⟩ : ∃ fp : (ℕ → X) → ℝ≥0∞, fp = fun p => ENNReal.ofReal (f p) := ⟨_, rfl⟩
  obtain ⟨fm, hfm⟩ : ∃ fm : (ℕ → X) → ℝ≥0∞, fm = fun p => ENNReal.ofReal (-f p) := ⟨_, rfl⟩
  obtain ⟨a, ha⟩ : ∃ a, a = fkExp (mdl.init P u0) (us.map (mdl.step P)) fp := ⟨_, rfl⟩
  obtain ⟨b, hbb⟩ : ∃ b, b = fkExp (mdl.init P u0) (us.map (mdl.step P)) fm := ⟨_, rfl⟩
  have mp : Measurable fp := by rw [hfp]; exact ENNReal.measurable_ofReal.comp hf
  have mm : Measurable fm := by rw [hfm]; exact ENNReal.measurable_ofReal.comp hf.neg
  have cp : ∀ p, fp p ≤ ENNReal.ofReal c := fun p => by
    rw [hfp]; exact ENNReal.ofReal_le_ofReal ((le_abs_self _).trans (hfc p))
  have cm : ∀ p, fm p ≤ ENNReal.ofReal c := fun p => by
    rw [hfm]; exact ENNReal.ofReal_le_ofReal ((neg_le_abs _).trans (hfc p))
  obtain ⟨-, e0⟩ := hb.mse_evidence hB
  have e1 := hb.mse hB mp ENNReal.ofReal_ne_top cp
  have e2 := hb.mse hB mm ENNReal.ofReal_ne_top cm
  have hmeas : ∀ {ψ : (ℕ → X) → ℝ≥0∞}, Measurable ψ → (∀ p, ψ p ≤ ENNReal.ofReal c) →
      Measurable fun k => histEst P rng ld (S k) us.length ψ := fun h1 h2 => by
    rw [hS]
    exact (lintegral_sq_histEst_run hb.run.ideal hb.run.unbiased hb.run.concentrates hb.indep hb.run.init h1 h2 us
      hb.run.regular hb.run.bound hb.density hb.run.dead).1
  rw [← hz] at e0
  rw [← ha] at e1
  rw [← hbb] at e2
  have hrun : ∀ k, (fun t => (pfRun rng.toPrng mdl I L u0 us k t).core) = S k := fun k => by rw [hS]
  have hlik : ∀ k, (pfRun rng.toPrng mdl I L u0 us k us.length).logZ.lik = (S k us.length).2.2.lik := fun k => by
    rw [hS]; rfl
  simp only [hlik] at e0
  simp only [hrun] at e1 e2 ⊢
  have m1 : Measurable fun k => ENNReal.ofReal (((histEst P rng ld (S k) us.length fp).toReal - a.toReal) ^ 2) :=
    ENNReal.measurable_ofReal.comp (((hmeas mp cp).ennreal_toReal.sub_const _).pow_const 2)
  have m2 : Measurable fun k => ENNReal.ofReal (((histEst P rng ld (S k) us.length fm).toReal - b.toReal) ^ 2) :=
    ENNReal.measurable_ofReal.comp (((hmeas mm cm).ennreal_toReal.sub_const _).pow_const 2)
  have hpt : ∀ k, ENNReal.ofReal ((backAvg P rng ld (S k) us.length f -
        fkMean (mdl.init P u0) (us.map (mdl.step P)) f) ^ 2) ≤
      ENNReal.ofReal (3 / z ^ 2) * (ENNReal.ofReal (c ^ 2) * ENNReal.ofReal (((S k us.length).2.2.lik - z) ^ 2) +
        ENNReal.ofReal (((histEst P rng ld (S k) us.length fp).toReal - a.toReal) ^ 2) +
        ENNReal.ofReal (((histEst P rng ld (S k) us.length fm).toReal - b.toReal) ^ 2)) := by
    intro k
    rw [← ENNReal.ofReal_mul (by positivity), ← ENNReal.ofReal_add (by positivity) (by positivity),
      ← ENNReal.ofReal_add (by positivity) (by positivity), ← ENNReal.ofReal_mul (by positivity)]
    refine ENNReal.ofReal_le_ofReal ?_
    have h1 := backAvg_eq (ld := ld) (H := S k) (t := us.length) hb.run.ideal hfc
    rw [← hfp, ← hfm] at h1
    have h2 : |backAvg P rng ld (S k) us.length f| ≤ c :=
      abs_weighted_le hc fun i => abs_backMean_le hb.run.ideal hfc i
    have h3 : fkMean (mdl.init P u0) (us.map (mdl.step P)) f = (a.toReal - b.toReal) / z := by
      rw [fkMean, ← hfp, ← hfm, ← ha, ← hbb, ← hz]
    rw [h3]
    have h5 : backAvg P rng ld (S k) us.length f ^ 2 ≤ c ^ 2 := by
      rw [← sq_abs]
      exact pow_le_pow_left₀ (abs_nonneg _) h2 2
    obtain ⟨v, hv⟩ : ∃ v, v = backAvg P rng ld (S k) us.length f := ⟨_, rfl⟩
    obtain ⟨Z, hZ⟩ : ∃ Z, Z = (S k us.length).2.2.lik := ⟨_, rfl⟩
    obtain ⟨A, hA⟩ : ∃ A, A = (histEst P rng ld (S k) us.length fp).toReal := ⟨_, rfl⟩
    obtain ⟨D, hD⟩ : ∃ D, D = (histEst P rng ld (S k) us.length fm).toReal := ⟨_, rfl⟩
    rw [← hv] at h5 h1 ⊢
    rw [← hZ] at h1 ⊢
    rw [← hA, ← hD] at h1 ⊢
    have h6 : v - (a.toReal - b.toReal) / z =
        ((A - a.toReal) - (D - b.toReal) - v * (Z - z)) / z := by
      field_simp
      linarith
    rw [h6, div_pow, div_mul_eq_mul_div]
    refine div_le_div_of_nonneg_right ?_ (by positivity)
    have h7 : v ^ 2 * (Z - z) ^ 2 ≤ c ^ 2 * (Z - z) ^ 2 := mul_le_mul_of_nonneg_right h5 (sq_nonneg _)
    nlinarith [sq_nonneg ((A - a.toReal) + (D - b.toReal)), sq_nonneg ((A - a.toReal) + v * (Z - z)),
      sq_nonneg ((D - b.toReal) - v * (Z - z))]
  refine (lintegral_mono hpt).trans ?_
  rw [lintegral_const_mul' _ _ ENNReal.ofReal_ne_top, lintegral_add_right _ m2, lintegral_add_right _ m1,
    lintegral_const_mul' _ _ ENNReal.ofReal_ne_top]
  obtain ⟨s, hs⟩ : ∃ s, s = (N : ℝ≥0∞)⁻¹ + 2 * κ * us.length := ⟨_, rfl⟩
  rw [← hs] at e0 e1 e2 ⊢
  calc _ ≤ ENNReal.ofReal (3 / z ^ 2) * (ENNReal.ofReal (c ^ 2) * (s * (B ^ us.length) ^ 2) +
          s * (B ^ us.length * ENNReal.ofReal c) ^ 2 + s * (B ^ us.length * ENNReal.ofReal c) ^ 2) := by gcongr
    _ = _ := by
        have h1 : ENNReal.ofReal (3 / z ^ 2) = 3 * ENNReal.ofReal (1 / z) ^ 2 := by
          rw [← ENNReal.ofReal_pow (by positivity), show (3 : ℝ≥0∞) = ENNReal.ofReal 3 by simp,
            ← ENNReal.ofReal_mul (by norm_num)]
          congr 1
          field_simp
        have h2 : ENNReal.ofReal (c / z) = ENNReal.ofReal c * ENNReal.ofReal (1 / z) := by
          rw [← ENNReal.ofReal_mul hc]
          congr 1
          ring
        rw [h1, h2, ENNReal.ofReal_pow hc]
        ring

end run

/-! ### The smoother -/

section smoother

variable [MeasurableSpace K] [NeZero N] [NeZero n] {P : Measure K} {rng : Rng K} (h : IdealRng rng P)

include h

omit [NeZero N] [NeZero n] in
/-- The keys of two slots. -/
theorem measurePreserving_slots (T : ℕ) {m m' : Fin n} (hne : m ≠ m') :
    MeasurePreserving (fun y : Fin T → K => ((fun t => rng.nth (y t) n m, fun t => rng.nth (y t) n m') :
      (Fin T → K) × (Fin T → K))) (Measure.pi fun _ => P) ((Measure.pi fun _ => P).prod (Measure.pi fun _ => P)) := by
  have := h.prob
  have h1 : MeasurePreserving (fun y : Fin T → K => fun t => (rng.nth (y t) n m, rng.nth (y t) n m'))
      (Measure.pi fun _ => P) (Measure.pi fun _ => P.prod P) :=
    measurePreserving_pi (fun _ : Fin T => P) (fun _ => P.prod P) fun _ => (measurePreserving_pair P hne).comp (h.split n)
  exact (measurePreserving_arrowProdEquivProdArrow K K (Fin T) (fun _ => P) fun _ => P).comp h1

/-- Backward sampling from given final particles. -/
theorem mse_backPath_slots (ld : ℕ → X → X → Fl) (H : ℕ → Core X N) (T : ℕ) (k0 : K) {f : (ℕ → X) → ℝ} {c : ℝ}
    (hf : ∀ p, |f p| ≤ c) (a : Fin n → Fin N) :
    ∫⁻ y : Fin T → K, ENNReal.ofReal ((∑ m, (n : ℝ)⁻¹ *
        f (backPath rng ld H (extendKeys k0 fun t => rng.nth (y t) n m) T (a m)) -
        ∑ m, (n : ℝ)⁻¹ * backMean P rng ld H T f (a m)) ^ 2) ∂(Measure.pi fun _ => P) ≤
      ENNReal.ofReal (4 * c ^ 2 / n) := by
  have := h.prob
  have hn : (0 : ℝ) < n := by exact_mod_cast NeZero.pos n
  have hc : 0 ≤ c := (abs_nonneg _).trans (hf fun _ => (H 0).1 (a 0))
  obtain ⟨ψ, hψ⟩ : ∃ ψ : (ℕ → X) → ℝ≥0∞, ψ = fun p => ENNReal.ofReal (f p + c) := ⟨_, rfl⟩
  have hψr : ∀ p, (ψ p).toReal = f p + c := fun p => by
    rw [hψ]; exact ENNReal.toReal_ofReal (by linarith [(abs_le.mp (hf p)).1])
  have hψt : ∀ p, ψ p ≠ ⊤ := fun p => by rw [hψ]; exact ENNReal.ofReal_ne_top
  have hψC : ∀ p, ψ p ≤ ENNReal.ofReal (2 * c) := fun p => by
    rw [hψ]; exact ENNReal.ofReal_le_ofReal (by linarith [(abs_le.mp (hf p)).2])
  obtain ⟨sl, hsl⟩ : ∃ sl : Fin n → (Fin T → K) → Fin T → K, sl = fun m y t => rng.nth (y t) n m := ⟨_, rfl⟩
  have hsle : ∀ m y, (fun t => rng.nth (y t) n m) = sl m y := fun m y => by rw [hsl]
  have hslp : ∀ m, MeasurePreserving (sl m) (Measure.pi fun _ => P) (Measure.pi fun _ => P) := fun m => by
    rw [hsl]
    exact measurePreserving_pi (fun _ : Fin T => P) (fun _ => P) fun _ => h.measurePreserving_nth n m
  have hpair : ∀ m m', m ≠ m' → MeasurePreserving (fun y => (sl m y, sl m' y)) (Measure.pi fun _ => P)
      ((Measure.pi fun _ => P).prod (Measure.pi fun _ => P)) := fun m m' hne => by
    rw [hsl]
    exact measurePreserving_slots h T hne
  simp only [hsle]
  obtain ⟨G, hG⟩ : ∃ G : Fin N → (Fin T → K) → ℝ≥0∞, G = fun i κ => ψ (backPath rng ld H (extendKeys k0 κ) T i) :=
    ⟨_, rfl⟩
  have hGm : ∀ i, Measurable (G i) := fun i => by
    rw [hG]; exact (measurable_backPath h ld H T i ψ).comp (measurable_extendKeys k0 T)
  have hGe : ∀ i, ∫⁻ κ, G i κ ∂(Measure.pi fun _ => P) = backExp P rng ld H T i ψ := fun i => by
    rw [hG]; exact lintegral_backPath h ld H k0 T i ψ
  have hGC : ∀ i κ, G i κ ≤ ENNReal.ofReal (2 * c) := fun i κ => by rw [hG]; exact hψC _
  have hGr : ∀ i κ, (G i κ).toReal = f (backPath rng ld H (extendKeys k0 κ) T i) + c := fun i κ => by
    rw [hG]; exact hψr _
  have hGt : ∀ i κ, G i κ ≠ ⊤ := fun i κ => ne_top_of_le_ne_top ENNReal.ofReal_ne_top (hGC i κ)
  have hT : ∀ m, Measurable fun y => G (a m) (sl m y) := fun m => (hGm _).comp (hslp m).measurable
  have hint : ∀ m, ∫⁻ y, G (a m) (sl m y) ∂(Measure.pi fun _ => P) = backExp P rng ld H T (a m) ψ := fun m =>
    ((hslp m).lintegral_comp (hGm _)).trans (hGe _)
  obtain ⟨Y, hY⟩ : ∃ Y : (Fin T → K) → ℝ≥0∞, Y = fun y => ∑ m, (n : ℝ≥0∞)⁻¹ * G (a m) (sl m y) := ⟨_, rfl⟩
  obtain ⟨μ, hμ⟩ : ∃ μ, μ = ∑ m, (n : ℝ≥0∞)⁻¹ * backExp P rng ld H T (a m) ψ := ⟨_, rfl⟩
  have hninv : (n : ℝ≥0∞)⁻¹ ≠ ⊤ := by simp [NeZero.ne n]
  have hYm : Measurable Y := by
    rw [hY]
    exact Finset.measurable_sum _ fun m _ => (hT m).const_mul _
  have hYt : ∀ y, Y y ≠ ⊤ := fun y => by
    rw [hY]
    exact ENNReal.sum_ne_top.mpr fun m _ => ENNReal.mul_ne_top hninv (hGt _ _)
  have het : ∀ i, backExp P rng ld H T i ψ ≠ ⊤ := fun i =>
    ne_top_of_le_ne_top ENNReal.ofReal_ne_top (backExp_le h ld H hψC T i)
  have hμt : μ ≠ ⊤ := by
    rw [hμ]
    exact ENNReal.sum_ne_top.mpr fun m _ => ENNReal.mul_ne_top hninv (het _)
  have hEY : ∫⁻ y, Y y ∂(Measure.pi fun _ => P) = μ := by
    rw [hY, hμ, lintegral_finsetSum' _ fun m _ => ((hT m).const_mul _).aemeasurable]
    refine Finset.sum_congr rfl fun m _ => ?_
    rw [lintegral_const_mul _ (hT m), hint]
  have hEY2 : ∫⁻ y, Y y ^ 2 ∂(Measure.pi fun _ => P) ≤ μ ^ 2 + ENNReal.ofReal (4 * c ^ 2 / n) := by
    rw [hY, hμ]
    refine (lintegral_sq_le (μ := Measure.pi fun _ : Fin T => P) (fun _ : Fin n => (n : ℝ≥0∞)⁻¹)
      (fun m => backExp P rng ld H T (a m) ψ) hT
      (C := ENNReal.ofReal (2 * c)) (fun m y => hGC _ _) (fun m m' => m ≠ m') fun m m' hne => ?_).trans_eq ?_
    · have h2 : Measurable fun q : (Fin T → K) × (Fin T → K) => G (a m) q.1 * G (a m') q.2 :=
        ((hGm _).comp measurable_fst).mul ((hGm _).comp measurable_snd)
      have h3 : ∫⁻ y, G (a m) (sl m y) * G (a m') (sl m' y) ∂(Measure.pi fun _ => P) =
          ∫⁻ q, G (a m) q.1 * G (a m') q.2 ∂((Measure.pi fun _ => P).prod (Measure.pi fun _ => P)) :=
        (hpair m m' hne).lintegral_comp h2
      rw [h3, lintegral_prod_mul (hGm _).aemeasurable (hGm _).aemeasurable, hGe, hGe]
    · rw [sum_ne_diag, sum_inv_sq]
      congr 1
      rw [← ENNReal.ofReal_pow (by positivity), ← ENNReal.ofReal_natCast, ← ENNReal.ofReal_inv_of_pos hn,
        ← ENNReal.ofReal_mul (by positivity)]
      congr 1
      ring
  have hsum : ∀ g : Fin n → ℝ, ∑ m, (n : ℝ)⁻¹ * (g m + c) = (∑ m, (n : ℝ)⁻¹ * g m) + c := by
    intro g
    simp only [mul_add]
    rw [Finset.sum_add_distrib]
    congr 1
    rw [Finset.sum_const, Finset.card_univ, Fintype.card_fin, nsmul_eq_mul]
    field_simp
  have e1 : ∀ y, (Y y).toReal = (∑ m, (n : ℝ)⁻¹ * f (backPath rng ld H (extendKeys k0 (sl m y)) T (a m))) + c := by
    intro y
    rw [hY]
    simp only
    rw [ENNReal.toReal_sum fun m _ => ENNReal.mul_ne_top hninv (hGt _ _)]
    simp only [ENNReal.toReal_mul, hGr, ENNReal.toReal_inv, ENNReal.toReal_natCast]
    exact hsum _
  have e2 : μ.toReal = (∑ m, (n : ℝ)⁻¹ * backMean P rng ld H T f (a m)) + c := by
    rw [hμ, ENNReal.toReal_sum fun m _ => ENNReal.mul_ne_top hninv (het _)]
    simp only [ENNReal.toReal_mul, ENNReal.toReal_inv, ENNReal.toReal_natCast, hψ, backExp_shift h hf]
    exact hsum _
  have h5 := mse_of_second hYm hYt hμt hEY hEY2
  simp only [e1, e2, add_sub_add_right_eq_sub] at h5
  exact h5

/-- The smoother after a run of the filter, when its own key is integrated out. -/
theorem mse_backPath (ld : ℕ → X → X → Fl) (H : ℕ → Core X N) (T : ℕ) {J : K → (Fin N → Fl) → Fin n → Fin N}
    (hJ : AccurateIdx P n J) {f : (ℕ → X) → ℝ} {c : ℝ} (hf : ∀ p, |f p| ≤ c) :
    Measurable (fun k => ∑ m, (n : ℝ)⁻¹ * f (backPath rng ld H (fun t => rng.nth (backKey rng.toPrng k T t) n m) T
      (J (rng.nth (rng.nth k (T + 1) 0) 2 1) (H T).2.1 m))) ∧
    (IsLogits (H T).2.1 →
      ∫⁻ k, ENNReal.ofReal ((∑ m, (n : ℝ)⁻¹ * f (backPath rng ld H
        (fun t => rng.nth (backKey rng.toPrng k T t) n m) T (J (rng.nth (rng.nth k (T + 1) 0) 2 1) (H T).2.1 m)) -
        backAvg P rng ld H T f) ^ 2) ∂P ≤ ENNReal.ofReal (16 * c ^ 2 / n)) := by
  have := h.prob
  have hn : (0 : ℝ) < n := by exact_mod_cast NeZero.pos n
  obtain ⟨k0⟩ : Nonempty K := by
    by_contra hne
    have : IsEmpty K := not_nonempty_iff.mp hne
    have h1 : P univ = 1 := measure_univ
    rw [univ_eq_empty_iff.mpr this, measure_empty] at h1
    exact zero_ne_one h1
  obtain ⟨A, hA⟩ : ∃ A : K → Fin n → Fin N, A = fun k => J k (H T).2.1 := ⟨_, rfl⟩
  have hAm : Measurable A := by rw [hA]; exact hJ.measurable_idx _
  obtain ⟨V, hV⟩ : ∃ V : (Fin T → K) → (Fin n → Fin N) → ℝ, V = fun y a => ∑ m, (n : ℝ)⁻¹ *
    f (backPath rng ld H (extendKeys k0 fun t => rng.nth (y t) n m) T (a m)) := ⟨_, rfl⟩
  have h1 : ∀ k, ∑ m, (n : ℝ)⁻¹ * f (backPath rng ld H (fun t => rng.nth (backKey rng.toPrng k T t) n m) T
        (J (rng.nth (rng.nth k (T + 1) 0) 2 1) (H T).2.1 m)) =
      V (Fin.tail (rng.nth k (T + 1))) (A (rng.nth (rng.nth k (T + 1) 0) 2 1)) := by
    intro k
    rw [hV, hA]
    refine Finset.sum_congr rfl fun m _ => ?_
    congr 2
    refine backPath_congr T _ fun s hs => ?_
    rw [backKey, dif_pos hs, extendKeys, dif_pos hs]
    rfl
  simp only [h1]
  have h2 : Measurable fun keys : Fin (T + 1) → K => Fin.tail keys :=
    measurable_pi_iff.mpr fun i => measurable_pi_apply i.succ
  have hVa : ∀ a, Measurable fun y => V y a := by
    intro a
    rw [hV]
    refine Finset.measurable_sum _ fun m _ => Measurable.const_mul ?_ _
    have h3 : Measurable fun y : Fin T → K => ENNReal.ofReal
        (f (backPath rng ld H (extendKeys k0 fun t => rng.nth (y t) n m) T (a m)) + c) := by
      have h4 : Measurable fun y : Fin T → K => fun t => rng.nth (y t) n m :=
        measurable_pi_iff.mpr fun t => (h.measurable_nth n m).comp (measurable_pi_apply t)
      exact (measurable_backPath h ld H T (a m) fun p => ENNReal.ofReal (f p + c)).comp
        ((measurable_extendKeys k0 T).comp h4)
    have h4 : ∀ y : Fin T → K, f (backPath rng ld H (extendKeys k0 fun t => rng.nth (y t) n m) T (a m)) =
        (ENNReal.ofReal (f (backPath rng ld H (extendKeys k0 fun t => rng.nth (y t) n m) T (a m)) + c)).toReal - c := by
      intro y
      rw [ENNReal.toReal_ofReal (by linarith [(abs_le.mp (hf (backPath rng ld H
        (extendKeys k0 fun t => rng.nth (y t) n m) T (a m)))).1])]
      ring
    rw [show (fun y : Fin T → K => f (backPath rng ld H (extendKeys k0 fun t => rng.nth (y t) n m) T (a m))) =
      fun y => _ from funext h4]
    exact h3.ennreal_toReal.sub_const c
  have hVm : Measurable fun q : (Fin T → K) × (Fin n → Fin N) => V q.1 q.2 := measurable_from_prod_countable_left hVa
  have hW : Measurable fun keys : Fin (T + 1) → K => V (Fin.tail keys) (A (rng.nth (keys 0) 2 1)) :=
    hVm.comp (h2.prodMk (hAm.comp ((h.measurable_nth 2 1).comp (measurable_pi_apply 0))))
  refine ⟨hW.comp (h.split (T + 1)).measurable, fun hl => ?_⟩
  obtain ⟨β, hβ⟩ : ∃ β, β = backAvg P rng ld H T f := ⟨_, rfl⟩
  rw [← hβ]
  have hWm : Measurable fun keys : Fin (T + 1) → K =>
      ENNReal.ofReal ((V (Fin.tail keys) (A (rng.nth (keys 0) 2 1)) - β) ^ 2) :=
    ENNReal.measurable_ofReal.comp ((hW.sub_const β).pow_const 2)
  have h3 : ∫⁻ k, ENNReal.ofReal ((V (Fin.tail (rng.nth k (T + 1))) (A (rng.nth (rng.nth k (T + 1) 0) 2 1)) - β) ^ 2) ∂P =
      ∫⁻ keys : Fin (T + 1) → K, ENNReal.ofReal ((V (Fin.tail keys) (A (rng.nth (keys 0) 2 1)) - β) ^ 2)
        ∂(Measure.pi fun _ => P) := (h.split (T + 1)).lintegral_comp hWm
  rw [h3, lintegral_pi_cons P hWm]
  simp only [Fin.cons_zero, Fin.tail_cons]
  obtain ⟨g, hg⟩ : ∃ g : (Fin n → Fin N) → ℝ, g = fun a => ∑ m, (n : ℝ)⁻¹ * backMean P rng ld H T f (a m) := ⟨_, rfl⟩
  have h4 : ∀ a, ∫⁻ y, ENNReal.ofReal ((V y a - β) ^ 2) ∂(Measure.pi fun _ => P) ≤
      2 * ENNReal.ofReal (4 * c ^ 2 / n) + 2 * ENNReal.ofReal ((g a - β) ^ 2) := by
    intro a
    have h5 := mse_backPath_slots h ld H T k0 hf a
    calc ∫⁻ y, ENNReal.ofReal ((V y a - β) ^ 2) ∂(Measure.pi fun _ => P) ≤
        ∫⁻ y, (2 * ENNReal.ofReal ((V y a - g a) ^ 2) + 2 * ENNReal.ofReal ((g a - β) ^ 2))
          ∂(Measure.pi fun _ => P) := by
          refine lintegral_mono fun y => ?_
          have e3 : ENNReal.ofReal (2 * (V y a - g a) ^ 2 + 2 * (g a - β) ^ 2) =
              2 * ENNReal.ofReal ((V y a - g a) ^ 2) + 2 * ENNReal.ofReal ((g a - β) ^ 2) := by
            rw [ENNReal.ofReal_add (by positivity) (by positivity), ENNReal.ofReal_mul (by norm_num),
              ENNReal.ofReal_mul (by norm_num)]
            simp
          rw [← e3]
          refine ENNReal.ofReal_le_ofReal ?_
          nlinarith [sq_nonneg (V y a - g a - (g a - β))]
      _ = 2 * ∫⁻ y, ENNReal.ofReal ((V y a - g a) ^ 2) ∂(Measure.pi fun _ => P) + 2 * ENNReal.ofReal ((g a - β) ^ 2) := by
          rw [lintegral_add_right _ measurable_const, lintegral_const, measure_univ, mul_one,
            lintegral_const_mul' _ _ (by norm_num)]
      _ ≤ _ := by
          rw [hV, hg]
          gcongr
  refine (lintegral_mono fun k => h4 (A (rng.nth k 2 1))).trans ?_
  have hgm : Measurable fun k => ENNReal.ofReal ((g (A k) - β) ^ 2) :=
    (measurable_of_finite fun a => ENNReal.ofReal ((g a - β) ^ 2)).comp hAm
  have h6 : ∫⁻ k, ENNReal.ofReal ((g (A (rng.nth k 2 1)) - β) ^ 2) ∂P ≤ ENNReal.ofReal (4 * c ^ 2 / n) := by
    have h7 : ∫⁻ k, ENNReal.ofReal ((g (A (rng.nth k 2 1)) - β) ^ 2) ∂P = ∫⁻ k, ENNReal.ofReal ((g (A k) - β) ^ 2) ∂P :=
      (h.measurePreserving_nth 2 1).lintegral_comp hgm
    rw [h7, hg, hA, hβ]
    exact hJ.error _ hl (backMean P rng ld H T f) c fun i => abs_backMean_le h hf i
  rw [lintegral_add_left measurable_const, lintegral_const, measure_univ, mul_one,
    lintegral_const_mul' _ _ (by norm_num)]
  calc _ ≤ 2 * ENNReal.ofReal (4 * c ^ 2 / n) + 2 * ENNReal.ofReal (4 * c ^ 2 / n) := by gcongr
    _ = _ := by
        rw [← add_mul, show (2 : ℝ≥0∞) + 2 = ENNReal.ofReal 4 by norm_num, ← ENNReal.ofReal_mul (by norm_num)]
        congr 1
        ring

end smoother

end

end Cuthbert.SMC
