import Verif.Props.Generate
import Verif.Props.KalmanSmoother
import Verif.Lemmas.GenRandom

/-!
# Properties C63 and C73: simulated data and the Kalman filter

The path expectations in which the Kalman theorems are stated are those of the simulated model, and the
Gaussian laws returned by the filter are the conditional laws of the simulated states.
-/

namespace Cuthbert
namespace Generate
open MeasureTheory ProbabilityTheory Matrix Set Cuthbert.Kalman
open scoped ENNReal

noncomputable section

variable {nx ny : ℕ}

/-- One step of the model with an observation. -/
def stepAt (θ : Par nx ny) (y : Fin ny → ℝ) : Step nx ny :=
  ⟨θ.F, θ.c, θ.cholQ, θ.H, θ.d, θ.cholR, fun i => some (y i)⟩

theorem stepsOf_succ {T : ℕ} (θ : Fin (T + 1) → Par nx ny) (y : Fin (T + 1) → Fin ny → ℝ) :
    stepsOf θ y = stepAt (θ 0) (y 0) :: stepsOf (fun t => θ t.succ) (fun t => y t.succ) := by
  rw [stepsOf, List.ofFn_succ]; rfl

/-- With nothing missing the likelihood of a step is the Gaussian density of the observation. -/
theorem stepAt_lik (θ : Par nx ny) (y : Fin ny → ℝ) (x : Fin nx → ℝ) :
    (stepAt θ y).lik x =
      ENNReal.ofReal (Real.exp (gaussLogDensity (θ.H *ᵥ x + θ.d) (θ.cholR * θ.cholRᵀ) y)) := by
  let e : Obs (stepAt θ y).y ≃ Fin ny := Equiv.subtypeUnivEquiv fun i => rfl
  rw [Step.lik, ← gaussLogDensity_reindex e]
  rfl

theorem stepAt_R (θ : Par nx ny) (y : Fin ny → ℝ) (h : θ.cholR.det ≠ 0) : (stepAt θ y).R.det ≠ 0 :=
  obsR_det _ _ (by
    rw [Matrix.det_mul, Matrix.det_transpose]
    exact mul_ne_zero h h)

theorem measurable_stepAt_lik (θ : Par nx ny) :
    Measurable fun q : (Fin ny → ℝ) × (Fin nx → ℝ) => (stepAt θ q.1).lik q.2 := by
  simp only [stepAt_lik]
  have : Measurable fun q : (Fin ny → ℝ) × (Fin nx → ℝ) =>
      gaussLogDensity (θ.H *ᵥ q.2 + θ.d) (θ.cholR * θ.cholRᵀ) q.1 := by
    simp only [gaussLogDensity, Matrix.mulVec, dotProduct, Pi.sub_apply, Pi.add_apply]
    fun_prop
  exact ENNReal.measurable_ofReal.comp (Real.measurable_exp.comp this)

attribute [local irreducible] Step.lik

theorem measurable_pathExp_obs : ∀ {T : ℕ} (θ : Fin T → Par nx ny) {Ω : Type} [MeasurableSpace Ω]
    {f : Ω × (ℕ → Fin nx → ℝ) → ℝ≥0∞} (_ : Measurable f) {y : Ω → Fin T → Fin ny → ℝ} (_ : Measurable y)
    {x : Ω → Fin nx → ℝ} (_ : Measurable x),
    Measurable fun ω => pathExp (stepsOf θ (y ω)) (fun p => f (ω, p)) (x ω) := by
  intro T
  induction T with
  | zero =>
    intro θ Ω _ f hf y hy x hx
    simp only [stepsOf, List.ofFn_zero, pathExp]
    exact hf.comp (measurable_id.prodMk (measurable_pi_lambda _ fun _ => hx))
  | succ T ih =>
    intro θ Ω _ f hf y hy x hx
    simp only [stepsOf_succ, pathExp]
    have hf' : Measurable fun q : (Ω × (Fin nx → ℝ)) × (ℕ → Fin nx → ℝ) =>
        f (q.1.1, pathCons (x q.1.1) q.2) :=
      hf.comp ((measurable_fst.comp measurable_fst).prodMk (measurable_pathCons
        (hx.comp (measurable_fst.comp measurable_fst)) measurable_snd))
    have hy' : Measurable fun (q : Ω × (Fin nx → ℝ)) (t : Fin T) => y q.1 t.succ :=
      measurable_pi_lambda _ fun t => (measurable_pi_apply t.succ).comp (hy.comp measurable_fst)
    have h : Measurable fun q : Ω × (Fin nx → ℝ) => pathExp (stepsOf (fun t => θ t.succ) fun t => y q.1 t.succ)
        (fun p => f (q.1, pathCons (x q.1) p)) q.2 :=
      ih (fun t => θ t.succ) (Ω := Ω × (Fin nx → ℝ)) (f := fun q => f (q.1.1, pathCons (x q.1.1) q.2)) hf'
        (y := fun q t => y q.1 t.succ) hy' (x := fun q => q.2) measurable_snd
    clear hf' hy' ih
    have hy0 : Measurable fun ω => y ω 0 := (measurable_pi_apply (0 : Fin (T + 1))).comp hy
    have hpair : Measurable fun q : Ω × (Fin nx → ℝ) => (y q.1 0, q.2) :=
      (hy0.comp measurable_fst).prodMk measurable_snd
    have hl : Measurable fun q : Ω × (Fin nx → ℝ) => (stepAt (θ 0) (y q.1 0)).lik q.2 :=
      Measurable.comp (g := fun q : (Fin ny → ℝ) × (Fin nx → ℝ) => (stepAt (θ 0) q.1).lik q.2)
        (measurable_stepAt_lik (θ 0)) hpair
    have hg := hl.mul h
    have hx' : Measurable fun ω => (θ 0).F *ᵥ x ω + (θ 0).c := measurable_mean_kernel _ _ hx
    exact measurable_lintegral_kernel (fun ω => (θ 0).F *ᵥ x ω + (θ 0).c) hx' (θ 0).cholQ hg

theorem measurable_simulate : ∀ {T : ℕ} (θ : Fin T → Par nx ny) {Ω : Type} [MeasurableSpace Ω]
    {x : Ω → Fin nx → ℝ} (_ : Measurable x) {e : Ω → Fin T → (Fin nx → ℝ) × (Fin ny → ℝ)} (_ : Measurable e),
    (Measurable fun ω => simPath T θ (x ω) (e ω)) ∧ Measurable fun ω => simulate T θ (x ω) (e ω)
  | 0, θ, Ω, _, x, hx, e, he => by
    refine ⟨measurable_pi_lambda _ fun _ => hx, measurable_pi_lambda _ fun i => i.elim0⟩
  | T + 1, θ, Ω, _, x, hx, e, he => by
    have he0 : Measurable fun ω => e ω 0 := (measurable_pi_apply 0).comp he
    have hx' : Measurable fun ω => (θ 0).F *ᵥ x ω + (θ 0).c + (θ 0).cholQ *ᵥ (e ω 0).1 :=
      (measurable_mean_kernel _ _ hx).add ((measurable_mulVec _).comp (measurable_fst.comp he0))
    have he' : Measurable fun ω (t : Fin T) => e ω t.succ :=
      measurable_pi_lambda _ fun t => (measurable_pi_apply t.succ).comp he
    obtain ⟨h1, h2⟩ := measurable_simulate (fun t => θ t.succ) hx' he'
    refine ⟨measurable_pathCons hx h1, measurable_pi_lambda _ fun t => ?_⟩
    refine Fin.cases ?_ (fun t => ?_) t
    · simp only [simulate, Fin.cons_zero]
      exact (((measurable_mulVec _).comp hx').add measurable_const).add
        ((measurable_mulVec _).comp (measurable_snd.comp he0))
    · simp only [simulate, Fin.cons_succ]
      exact (measurable_pi_apply t).comp h2

theorem measurable_cons {Ω V : Type*} [MeasurableSpace Ω] [MeasurableSpace V] {T : ℕ} {a : Ω → V}
    {b : Ω → Fin T → V} (ha : Measurable a) (hb : Measurable b) :
    Measurable fun ω => (Fin.cons (a ω) (b ω) : Fin (T + 1) → V) := by
  refine measurable_pi_lambda _ fun t => ?_
  refine Fin.cases ?_ (fun t => ?_) t
  · simpa only [Fin.cons_zero] using ha
  · simp only [Fin.cons_succ]
    exact (measurable_pi_apply t).comp hb

theorem lintegral_pi_succ {V : Type*} [MeasurableSpace V] (μ : Measure V) [SigmaFinite μ] {T : ℕ}
    {F : (Fin (T + 1) → V) → ℝ≥0∞} (hF : Measurable F) :
    ∫⁻ q, F q ∂(Measure.pi fun _ => μ) = ∫⁻ a, ∫⁻ q, F (Fin.cons a q) ∂(Measure.pi fun _ => μ) ∂μ := by
  have h1 := (mp_pi_succ μ T).symm (MeasurableEquiv.piFinSuccAbove (fun _ => V) 0)
  have hm : Measurable fun r : V × (Fin T → V) => F (Fin.cons r.1 r.2) :=
    hF.comp (measurable_cons measurable_fst measurable_snd)
  rw [← lintegral_prod _ hm.aemeasurable, ← h1.lintegral_comp hF]
  refine lintegral_congr fun r => ?_
  congr 1
  exact Fin.insertNth_zero' r.1 r.2

/-- The law of the path and the observations from a given initial state. -/
theorem simulate_pathExp : ∀ {T : ℕ} (θ : Fin T → Par nx ny) (_ : ∀ t, (θ t).cholR.det ≠ 0) (x : Fin nx → ℝ)
    {f : (ℕ → Fin nx → ℝ) × (Fin T → Fin ny → ℝ) → ℝ≥0∞} (_ : Measurable f),
    ∫⁻ e, f (simPath T θ x e, simulate T θ x e)
        ∂(Measure.pi fun _ => (stdNormal (Fin nx)).prod (stdNormal (Fin ny))) =
      ∫⁻ y, pathExp (stepsOf θ y) (fun p => f (p, y)) x
  | 0, θ, _, x, f, hf => by
    simp only [stepsOf, List.ofFn_zero, pathExp, simPath]
    rw [show (volume : Measure (Fin 0 → Fin ny → ℝ)) = Measure.dirac (fun i => i.elim0) from
        Measure.volume_pi_eq_dirac _, lintegral_dirac,
      Measure.pi_of_empty (fun _ => (stdNormal (Fin nx)).prod (stdNormal (Fin ny))), lintegral_dirac]
    rfl
  | T + 1, θ, hR, x, f, hf => by
    have hm0 : Measurable fun e : Fin (T + 1) → (Fin nx → ℝ) × (Fin ny → ℝ) =>
        f (simPath (T + 1) θ x e, simulate (T + 1) θ x e) := by
      obtain ⟨h1, h2⟩ := measurable_simulate θ (x := fun _ : Fin (T + 1) → (Fin nx → ℝ) × (Fin ny → ℝ) => x)
        measurable_const measurable_id
      exact hf.comp (h1.prodMk h2)
    -- the inner expectation over the remaining steps
    obtain ⟨J, hJ⟩ : ∃ J : (Fin nx → ℝ) × (Fin ny → ℝ) → ℝ≥0∞, J = fun q =>
        ∫⁻ y, pathExp (stepsOf (fun t => θ t.succ) y)
          (fun p => f (pathCons x p, (Fin.cons q.2 y : Fin (T + 1) → Fin ny → ℝ))) q.1 := ⟨_, rfl⟩
    have hinner : Measurable fun r : ((Fin nx → ℝ) × (Fin ny → ℝ)) × (Fin T → Fin ny → ℝ) =>
        pathExp (stepsOf (fun t => θ t.succ) r.2)
          (fun p => f (pathCons x p, (Fin.cons r.1.2 r.2 : Fin (T + 1) → Fin ny → ℝ))) r.1.1 := by
      refine measurable_pathExp_obs (fun t => θ t.succ)
        (f := fun q : (((Fin nx → ℝ) × (Fin ny → ℝ)) × (Fin T → Fin ny → ℝ)) × (ℕ → Fin nx → ℝ) =>
          f (pathCons x q.2, (Fin.cons q.1.1.2 q.1.2 : Fin (T + 1) → Fin ny → ℝ))) ?_ measurable_snd
        (measurable_fst.comp measurable_fst)
      exact hf.comp ((measurable_pathCons measurable_const measurable_snd).prodMk
        (measurable_cons (measurable_snd.comp (measurable_fst.comp measurable_fst))
          (measurable_snd.comp measurable_fst)))
    have hJm : Measurable J := by
      rw [hJ]; exact hinner.lintegral_prod_right'
    have hxm : Measurable fun v : Fin nx → ℝ => (θ 0).F *ᵥ x + (θ 0).c + (θ 0).cholQ *ᵥ v :=
      measurable_affine _ _
    have hlhs : ∫⁻ e, f (simPath (T + 1) θ x e, simulate (T + 1) θ x e)
        ∂(Measure.pi fun _ => (stdNormal (Fin nx)).prod (stdNormal (Fin ny))) =
        ∫⁻ x', (∫⁻ y, (stepAt (θ 0) y).lik x' * J (x', y)) ∂gauss ((θ 0).F *ᵥ x + (θ 0).c) (θ 0).cholQ := by
      rw [lintegral_pi_succ _ hm0]
      have hstep : ∀ e0 : (Fin nx → ℝ) × (Fin ny → ℝ),
          ∫⁻ e', f (simPath (T + 1) θ x (Fin.cons e0 e'), simulate (T + 1) θ x (Fin.cons e0 e'))
            ∂(Measure.pi fun _ => (stdNormal (Fin nx)).prod (stdNormal (Fin ny))) =
          J ((θ 0).F *ᵥ x + (θ 0).c + (θ 0).cholQ *ᵥ e0.1,
            (θ 0).H *ᵥ ((θ 0).F *ᵥ x + (θ 0).c + (θ 0).cholQ *ᵥ e0.1) + (θ 0).d + (θ 0).cholR *ᵥ e0.2) := by
        intro e0
        rw [hJ]
        simp only []
        rw [← simulate_pathExp (fun t => θ t.succ) (fun t => hR t.succ) _
          (f := fun q => f (pathCons x q.1, (Fin.cons _ q.2 : Fin (T + 1) → Fin ny → ℝ)))]
        · refine lintegral_congr fun e' => ?_
          rfl
        · exact hf.comp ((measurable_pathCons measurable_const measurable_fst).prodMk
            (measurable_cons measurable_const measurable_snd))
      simp only [hstep]
      have hJc : Measurable fun q : (Fin nx → ℝ) × (Fin ny → ℝ) =>
          J ((θ 0).F *ᵥ x + (θ 0).c + (θ 0).cholQ *ᵥ q.1,
            (θ 0).H *ᵥ ((θ 0).F *ᵥ x + (θ 0).c + (θ 0).cholQ *ᵥ q.1) + (θ 0).d + (θ 0).cholR *ᵥ q.2) :=
        hJm.comp ((hxm.comp measurable_fst).prodMk
          ((((measurable_mulVec _).comp (hxm.comp measurable_fst)).add measurable_const).add
            ((measurable_mulVec _).comp measurable_snd)))
      rw [lintegral_prod _ hJc.aemeasurable]
      have hy : ∀ x' : Fin nx → ℝ,
          ∫⁻ w, J (x', (θ 0).H *ᵥ x' + (θ 0).d + (θ 0).cholR *ᵥ w) ∂stdNormal (Fin ny) =
            ∫⁻ y, (stepAt (θ 0) y).lik x' * J (x', y) := by
        intro x'
        have hJx : Measurable fun y => J (x', y) := hJm.comp measurable_prodMk_left
        rw [← lintegral_gauss _ _ (f := fun y => J (x', y)) hJx, gauss_eq_withDensity _ _ (hR 0),
          lintegral_withDensity_eq_lintegral_mul _ ?_ hJx]
        · refine lintegral_congr fun y => ?_
          rw [stepAt_lik]; rfl
        · have := (measurable_stepAt_lik (θ 0)).comp (measurable_prodMk_right (y := x'))
          simpa only [Function.comp_def, stepAt_lik] using this
      simp only [hy]
      have hmx : Measurable fun x' : Fin nx → ℝ => ∫⁻ y, (stepAt (θ 0) y).lik x' * J (x', y) := by
        refine Measurable.lintegral_prod_right' (f := fun q : (Fin nx → ℝ) × (Fin ny → ℝ) =>
          (stepAt (θ 0) q.2).lik q.1 * J q) ?_
        exact ((measurable_stepAt_lik (θ 0)).comp measurable_swap).mul hJm
      rw [lintegral_gauss _ _ hmx]
    rw [hlhs]
    -- the right-hand side
    have hrm : Measurable fun y : Fin (T + 1) → Fin ny → ℝ => pathExp (stepsOf θ y) (fun p => f (p, y)) x := by
      refine measurable_pathExp_obs θ (Ω := Fin (T + 1) → Fin ny → ℝ) (f := fun q => f (q.2, q.1)) ?_ measurable_id
        measurable_const
      exact hf.comp measurable_swap
    have hv : (volume : Measure (Fin (T + 1) → Fin ny → ℝ)) = Measure.pi fun _ => volume := volume_pi
    rw [hv, lintegral_pi_succ _ hrm]
    have hstep : ∀ (y0 : Fin ny → ℝ) (y' : Fin T → Fin ny → ℝ),
        pathExp (stepsOf θ (Fin.cons y0 y')) (fun p => f (p, (Fin.cons y0 y' : Fin (T + 1) → Fin ny → ℝ))) x =
        ∫⁻ x', (stepAt (θ 0) y0).lik x' * pathExp (stepsOf (fun t => θ t.succ) y')
          (fun p => f (pathCons x p, (Fin.cons y0 y' : Fin (T + 1) → Fin ny → ℝ))) x'
          ∂gauss ((θ 0).F *ᵥ x + (θ 0).c) (θ 0).cholQ := by
      intro y0 y'
      rw [stepsOf_succ, pathExp]
      rfl
    simp only [hstep]
    have hq : ∀ y0 : Fin ny → ℝ, Measurable fun q : (Fin T → Fin ny → ℝ) × (Fin nx → ℝ) =>
        (stepAt (θ 0) y0).lik q.2 * pathExp (stepsOf (fun t => θ t.succ) q.1)
          (fun p => f (pathCons x p, (Fin.cons y0 q.1 : Fin (T + 1) → Fin ny → ℝ))) q.2 := fun y0 =>
      ((stepAt (θ 0) y0).measurable_lik.comp measurable_snd).mul
        (hinner.comp ((measurable_snd.prodMk measurable_const).prodMk measurable_fst))
    have hswap : ∀ y0 : Fin ny → ℝ,
        ∫⁻ y' : Fin T → Fin ny → ℝ, ∫⁻ x', (stepAt (θ 0) y0).lik x' * pathExp (stepsOf (fun t => θ t.succ) y')
          (fun p => f (pathCons x p, (Fin.cons y0 y' : Fin (T + 1) → Fin ny → ℝ))) x'
          ∂gauss ((θ 0).F *ᵥ x + (θ 0).c) (θ 0).cholQ =
        ∫⁻ x', (stepAt (θ 0) y0).lik x' * J (x', y0) ∂gauss ((θ 0).F *ᵥ x + (θ 0).c) (θ 0).cholQ := by
      intro y0
      rw [lintegral_lintegral_swap (hq y0).aemeasurable]
      refine lintegral_congr fun x' => ?_
      have hc : Measurable fun y' : Fin T → Fin ny → ℝ => pathExp (stepsOf (fun t => θ t.succ) y')
          (fun p => f (pathCons x p, (Fin.cons y0 y' : Fin (T + 1) → Fin ny → ℝ))) x' :=
        hinner.comp (measurable_prodMk_left (x := (x', y0)))
      rw [lintegral_const_mul _ hc, hJ]
    refine Eq.trans ?_ (lintegral_congr hswap).symm
    rw [lintegral_lintegral_swap]
    exact (((measurable_stepAt_lik (θ 0)).comp measurable_swap).mul hJm).aemeasurable

/-- **C73.** The path expectations `jointExp` in which the Kalman theorems are stated are the law of the
simulated state-space model: for every function `f` of the latent path and the observations, the
expectation of `f` over simulations is the integral over all observation sequences of
`E[f ∏ p(y_t | x_t)]`. In particular `jointExp _ _ _ 1` is the density of the observations. -/
theorem simulation_law {T : ℕ} (m0 : Fin nx → ℝ) (cholP0 : Matrix (Fin nx) (Fin nx) ℝ) (θ : Fin T → Par nx ny)
    (hR : ∀ t, (θ t).cholR.det ≠ 0) {f : (ℕ → Fin nx → ℝ) × (Fin T → Fin ny → ℝ) → ℝ≥0∞} (hf : Measurable f) :
    ∫⁻ e, f (simPath T θ (m0 + cholP0 *ᵥ e.1) e.2, simulate T θ (m0 + cholP0 *ᵥ e.1) e.2) ∂noiseLaw nx ny T =
      ∫⁻ y, jointExp m0 cholP0 (stepsOf θ y) fun p => f (p, y) := by
  have hx : Measurable fun e : (Fin nx → ℝ) × (Fin T → (Fin nx → ℝ) × (Fin ny → ℝ)) => m0 + cholP0 *ᵥ e.1 :=
    (measurable_affine m0 cholP0).comp measurable_fst
  obtain ⟨h1, h2⟩ := measurable_simulate θ hx measurable_snd
  have hfm : Measurable fun e : (Fin nx → ℝ) × (Fin T → (Fin nx → ℝ) × (Fin ny → ℝ)) =>
      f (simPath T θ (m0 + cholP0 *ᵥ e.1) e.2, simulate T θ (m0 + cholP0 *ᵥ e.1) e.2) := hf.comp (h1.prodMk h2)
  rw [noiseLaw, lintegral_prod _ hfm.aemeasurable]
  simp only [simulate_pathExp θ hR _ hf]
  have hm : Measurable fun q : (Fin nx → ℝ) × (Fin T → Fin ny → ℝ) =>
      pathExp (stepsOf θ q.2) (fun p => f (p, q.2)) q.1 := by
    refine measurable_pathExp_obs θ (Ω := (Fin nx → ℝ) × (Fin T → Fin ny → ℝ)) (f := fun q => f (q.2, q.1.2)) ?_
      measurable_snd measurable_fst
    exact hf.comp (measurable_snd.prodMk (measurable_snd.comp measurable_fst))
  have hmx : Measurable fun x : Fin nx → ℝ => ∫⁻ y, pathExp (stepsOf θ y) (fun p => f (p, y)) x :=
    hm.lintegral_prod_right'
  rw [← lintegral_gauss m0 cholP0 hmx, lintegral_lintegral_swap hm.aemeasurable]
  rfl

/-! ## The filter and the smoother on simulated data -/

/-- Callbacks that read the parameters and the observation off the model inputs. -/
def dataCallbacks (m0 : Fin nx → ℝ) (cholP0 : Matrix (Fin nx) (Fin nx) ℝ) : Callbacks nx ny (Step nx ny) where
  getInit _ := (m0, cholP0)
  getDynamics s := (s.F, s.c, s.cholQ)
  getObservation s := (s.H, s.d, s.cholR, s.y)

theorem stepOf_data (m0 : Fin nx → ℝ) (cholP0 : Matrix (Fin nx) (Fin nx) ℝ) :
    stepOf (dataCallbacks (ny := ny) m0 cholP0) = id := rfl

/-- The expectation of `f(x_0..x_T, y_1..y_T)` over simulations of the model. -/
def simExp {T : ℕ} (m0 : Fin nx → ℝ) (cholP0 : Matrix (Fin nx) (Fin nx) ℝ) (θ : Fin T → Par nx ny)
    (f : (ℕ → Fin nx → ℝ) → (Fin T → Fin ny → ℝ) → ℝ≥0∞) : ℝ≥0∞ :=
  ∫⁻ e, f (simPath T θ (m0 + cholP0 *ᵥ e.1) e.2) (simulate T θ (m0 + cholP0 *ᵥ e.1) e.2) ∂noiseLaw nx ny T

theorem measurable_jointExp {T : ℕ} (m0 : Fin nx → ℝ) (cholP0 : Matrix (Fin nx) (Fin nx) ℝ)
    (θ : Fin T → Par nx ny) {f : (ℕ → Fin nx → ℝ) × (Fin T → Fin ny → ℝ) → ℝ≥0∞} (hf : Measurable f) :
    Measurable fun y => jointExp m0 cholP0 (stepsOf θ y) fun p => f (p, y) := by
  have hm : Measurable fun q : (Fin T → Fin ny → ℝ) × (Fin nx → ℝ) =>
      pathExp (stepsOf θ q.1) (fun p => f (p, q.1)) q.2 := by
    refine measurable_pathExp_obs θ (Ω := (Fin T → Fin ny → ℝ) × (Fin nx → ℝ)) (f := fun q => f (q.2, q.1.1)) ?_
      measurable_fst measurable_snd
    exact hf.comp (measurable_snd.prodMk (measurable_fst.comp measurable_fst))
  exact measurable_lintegral_kernel (fun _ => m0) measurable_const cholP0 hm

theorem measurable_at {T : ℕ} (t : ℕ) {φ : (Fin nx → ℝ) → ℝ≥0∞} (hφ : Measurable φ)
    {ψ : (Fin T → Fin ny → ℝ) → ℝ≥0∞} (hψ : Measurable ψ) :
    Measurable fun q : (ℕ → Fin nx → ℝ) × (Fin T → Fin ny → ℝ) => φ (q.1 t) * ψ q.2 :=
  (hφ.comp ((measurable_pi_apply t).comp measurable_fst)).mul (hψ.comp measurable_snd)

theorem pathExp_mul_const (ss : List (Step nx ny)) : ∀ (f : (ℕ → Fin nx → ℝ) → ℝ≥0∞) (_ : Measurable f)
    (c : ℝ≥0∞) (x : Fin nx → ℝ), pathExp ss (fun p => f p * c) x = pathExp ss f x * c := by
  induction ss with
  | nil => intro f _ c x; rfl
  | cons s ss ih =>
    intro f hf c x
    have hf' : Measurable fun p => f (pathCons x p) := hf.comp (measurable_pathCons measurable_const measurable_id)
    have hm : Measurable fun x' => s.lik x' * pathExp ss (fun p => f (pathCons x p)) x' :=
      s.measurable_lik.mul (measurable_pathExp' ss hf')
    simp only [pathExp]
    rw [← lintegral_mul_const _ hm]
    refine lintegral_congr fun x' => ?_
    rw [ih _ hf', mul_assoc]

theorem jointExp_mul_const (m0 : Fin nx → ℝ) (cholP0 : Matrix (Fin nx) (Fin nx) ℝ) (ss : List (Step nx ny))
    {f : (ℕ → Fin nx → ℝ) → ℝ≥0∞} (hf : Measurable f) (c : ℝ≥0∞) :
    jointExp m0 cholP0 ss (fun p => f p * c) = jointExp m0 cholP0 ss f * c := by
  simp only [jointExp, pathExp_mul_const ss f hf]
  rw [lintegral_mul_const _ (measurable_pathExp' ss hf)]

/-- If `N(m(y), L(y) L(y)ᵀ)` and `l(y)` give the law of `x_t` weighted by the likelihood of `y`, then the
former is the conditional law of `x_t` given `y` in simulations and `exp(l)` is the density of `y`. -/
theorem conditional_of_joint {T : ℕ} (m0 : Fin nx → ℝ) (cholP0 : Matrix (Fin nx) (Fin nx) ℝ)
    (θ : Fin T → Par nx ny) (hR : ∀ t, (θ t).cholR.det ≠ 0) (t : ℕ)
    (m : (Fin T → Fin ny → ℝ) → Fin nx → ℝ) (L : (Fin T → Fin ny → ℝ) → Matrix (Fin nx) (Fin nx) ℝ)
    (l : (Fin T → Fin ny → ℝ) → ℝ)
    (h : ∀ y (φ : (Fin nx → ℝ) → ℝ≥0∞), Measurable φ → jointExp m0 cholP0 (stepsOf θ y) (fun p => φ (p t)) =
      ENNReal.ofReal (Real.exp (l y)) * ∫⁻ x, φ x ∂gauss (m y) (L y))
    {φ : (Fin nx → ℝ) → ℝ≥0∞} (hφ : Measurable φ) {ψ : (Fin T → Fin ny → ℝ) → ℝ≥0∞} (hψ : Measurable ψ) :
    simExp m0 cholP0 θ (fun p y => φ (p t) * ψ y) =
        simExp m0 cholP0 θ (fun _ y => (∫⁻ x, φ x ∂gauss (m y) (L y)) * ψ y) ∧
      simExp m0 cholP0 θ (fun _ y => ψ y) = ∫⁻ y, ENNReal.ofReal (Real.exp (l y)) * ψ y := by
  have hone : ∀ y, jointExp m0 cholP0 (stepsOf θ y) (fun _ => 1) = ENNReal.ofReal (Real.exp (l y)) := fun y => by
    have := h y (fun _ => 1) measurable_const
    rw [this, lintegral_const, measure_univ, mul_one, mul_one]
  have hpos : ∀ y, ENNReal.ofReal (Real.exp (l y)) ≠ 0 := fun y => by
    simpa using Real.exp_pos (l y)
  have hmφ : Measurable fun y => jointExp m0 cholP0 (stepsOf θ y) fun p => φ (p t) :=
    measurable_jointExp m0 cholP0 θ (f := fun q => φ (q.1 t)) (hφ.comp ((measurable_pi_apply t).comp measurable_fst))
  have hm1 : Measurable fun y => jointExp m0 cholP0 (stepsOf θ y) fun _ => 1 :=
    measurable_jointExp m0 cholP0 θ (f := fun _ => 1) measurable_const
  have hN : (fun y => ∫⁻ x, φ x ∂gauss (m y) (L y)) =
      fun y => jointExp m0 cholP0 (stepsOf θ y) (fun p => φ (p t)) / jointExp m0 cholP0 (stepsOf θ y) fun _ => 1 := by
    funext y
    rw [h y φ hφ, hone, mul_comm, ENNReal.mul_div_cancel_right (hpos y) ENNReal.ofReal_ne_top]
  have hNm : Measurable fun y => ∫⁻ x, φ x ∂gauss (m y) (L y) := by
    rw [hN]; exact hmφ.div hm1
  have hconst : ∀ {g : (Fin T → Fin ny → ℝ) → ℝ≥0∞}, Measurable g → simExp m0 cholP0 θ (fun _ y => g y) =
      ∫⁻ y, ENNReal.ofReal (Real.exp (l y)) * g y := fun {g} hg => by
    rw [simExp, simulation_law m0 cholP0 θ hR (f := fun q => g q.2) (hg.comp measurable_snd)]
    refine lintegral_congr fun y => ?_
    have := jointExp_mul_const m0 cholP0 (stepsOf θ y) (f := fun _ => 1) measurable_const (g y)
    simp only [one_mul] at this
    rw [this, hone]
  refine ⟨?_, hconst hψ⟩
  rw [hconst (g := fun y => (∫⁻ x, φ x ∂gauss (m y) (L y)) * ψ y) (hNm.mul hψ), simExp,
    simulation_law m0 cholP0 θ hR (f := fun q => φ (q.1 t) * ψ q.2) (measurable_at t hφ hψ)]
  refine lintegral_congr fun y => ?_
  have hm : Measurable fun p : ℕ → Fin nx → ℝ => φ (p t) := hφ.comp (measurable_pi_apply t)
  have := jointExp_mul_const m0 cholP0 (stepsOf θ y) hm (ψ y)
  dsimp only
  rw [this, h y φ hφ, mul_assoc]

theorem stepsOf_R {T : ℕ} (θ : Fin T → Par nx ny) (hR : ∀ t, (θ t).cholR.det ≠ 0) (y : Fin T → Fin ny → ℝ) :
    ∀ s ∈ stepsOf θ y, s.R.det ≠ 0 := by
  intro s hs
  rw [stepsOf, List.mem_ofFn] at hs
  obtain ⟨t, rfl⟩ := hs
  exact stepAt_R (θ t) (y t) (hR t)

/-- **C73.** The Kalman filter computes conditional laws of simulated states. For every model with
nonsingular observation noise, in both modes: the last mean `m(y)` and factor `L(y)` that the filter returns
on observations `y` are such that `N(m(y), L(y) L(y)ᵀ)` is the conditional law of the simulated `x_T` given the
simulated `y`. -/
theorem kalman_filter_conditional {K : Type*} (qr : QR) (rng : Prng K) (parallel : Bool) (key : Option K) {T : ℕ}
    (m0 : Fin nx → ℝ) (cholP0 : Matrix (Fin nx) (Fin nx) ℝ) (θ : Fin T → Par nx ny)
    (hR : ∀ t, (θ t).cholR.det ≠ 0) (u₀ : Step nx ny) :
    ∃ (m : (Fin T → Fin ny → ℝ) → Fin nx → ℝ) (L : (Fin T → Fin ny → ℝ) → Matrix (Fin nx) (Fin nx) ℝ),
      (∀ y, ∃ states s, (filter rng (buildFilter qr (dataCallbacks m0 cholP0)) (u₀ :: stepsOf θ y) parallel
        key).result = .ok states ∧ states[T]? = some s ∧ s.mean = some (m y) ∧ s.cholCov = some (L y)) ∧
      ∀ (φ : (Fin nx → ℝ) → ℝ≥0∞) (ψ : (Fin T → Fin ny → ℝ) → ℝ≥0∞), Measurable φ → Measurable ψ →
        simExp m0 cholP0 θ (fun p y => φ (p T) * ψ y) =
          simExp m0 cholP0 θ (fun _ y => (∫⁻ x, φ x ∂gauss (m y) (L y)) * ψ y) := by
  have hlen : ∀ y, (stepsOf θ y).length = T := fun y => by simp [stepsOf]
  have hex : ∀ y, ∃ m L l, (∃ states s, (filter rng (buildFilter qr (dataCallbacks m0 cholP0))
      (u₀ :: stepsOf θ y) parallel key).result = .ok states ∧ states[T]? = some s ∧ s.mean = some m ∧
        s.cholCov = some L) ∧ ∀ φ : (Fin nx → ℝ) → ℝ≥0∞, Measurable φ →
          jointExp m0 cholP0 (stepsOf θ y) (fun p => φ (p T)) =
            ENNReal.ofReal (Real.exp l) * ∫⁻ x, φ x ∂gauss m L := fun y => by
    obtain ⟨states, h1, -, h3⟩ := kalman_filter_exact qr rng (dataCallbacks m0 cholP0) u₀ (stepsOf θ y) parallel key
      (stepsOf_R θ hR y)
    obtain ⟨s, m, L, l, hs, hm, hL, hj, -⟩ := h3 T (hlen y).ge
    refine ⟨m, L, l, ⟨states, s, h1, hs, hm, hL⟩, fun φ hφ => ?_⟩
    have := hj φ hφ
    rwa [List.take_of_length_le (hlen y).le, stepOf_data, List.map_id] at this
  choose m L l h1 h2 using hex
  exact ⟨m, L, h1, fun φ ψ hφ hψ => (conditional_of_joint m0 cholP0 θ hR T m L l h2 hφ hψ).1⟩

/-- **C73.** The log normalising constant that the filter returns on `y` is the log density of the simulated
observations, for nonsingular noises and a lower triangular initial factor. -/
theorem kalman_filter_density {K : Type*} (qr : QR) (rng : Prng K) (parallel : Bool) (key : Option K) {T : ℕ}
    (m0 : Fin nx → ℝ) (cholP0 : Matrix (Fin nx) (Fin nx) ℝ) (θ : Fin T → Par nx ny)
    (hP0 : IsLower cholP0) (hP0d : ∀ i, cholP0 i i ≠ 0) (hQ : ∀ t, (θ t).cholQ.det ≠ 0)
    (hR : ∀ t, (θ t).cholR.det ≠ 0) (u₀ : Step nx ny) :
    ∃ l : (Fin T → Fin ny → ℝ) → ℝ,
      (∀ y, ∃ states s, (filter rng (buildFilter qr (dataCallbacks m0 cholP0)) (u₀ :: stepsOf θ y) parallel
        key).result = .ok states ∧ states[T]? = some s ∧ s.logNormalizingConstant = some (l y)) ∧
      ∀ ψ : (Fin T → Fin ny → ℝ) → ℝ≥0∞, Measurable ψ →
        simExp m0 cholP0 θ (fun _ y => ψ y) = ∫⁻ y, ENNReal.ofReal (Real.exp (l y)) * ψ y := by
  have hlen : ∀ y, (stepsOf θ y).length = T := fun y => by simp [stepsOf]
  have hex : ∀ y, ∃ m L l, (∃ states s, (filter rng (buildFilter qr (dataCallbacks m0 cholP0))
      (u₀ :: stepsOf θ y) parallel key).result = .ok states ∧ states[T]? = some s ∧
        s.logNormalizingConstant = some l) ∧ ∀ φ : (Fin nx → ℝ) → ℝ≥0∞, Measurable φ →
          jointExp m0 cholP0 (stepsOf θ y) (fun p => φ (p T)) =
            ENNReal.ofReal (Real.exp l) * ∫⁻ x, φ x ∂gauss m L := fun y => by
    obtain ⟨states, h1, -, h3⟩ := kalman_filter_exact qr rng (dataCallbacks m0 cholP0) u₀ (stepsOf θ y) parallel key
      (stepsOf_R θ hR y)
    obtain ⟨s, m, L, l, hs, -, -, hj, hl⟩ := h3 T (hlen y).ge
    refine ⟨m, L, l, ⟨states, s, h1, hs, (hl hP0).2 hP0d fun u hu => Or.inr ?_⟩, fun φ hφ => ?_⟩
    · rw [stepsOf, List.mem_ofFn] at hu
      obtain ⟨t, rfl⟩ := hu
      rw [Matrix.det_mul, Matrix.det_transpose]
      exact mul_ne_zero (hQ t) (hQ t)
    · have := hj φ hφ
      rwa [List.take_of_length_le (hlen y).le, stepOf_data, List.map_id] at this
  choose m L l h1 h2 using hex
  exact ⟨l, h1, fun ψ hψ => (conditional_of_joint m0 cholP0 θ hR T m L l h2 (φ := fun _ => 1)
    measurable_const hψ).2⟩

/-- **C73.** The Kalman smoother computes conditional laws of simulated states: for every `t ≤ T` the mean and
factor that it returns at time `t` give the conditional law of the simulated `x_t` given all simulated
observations. Process and observation noise nonsingular; every combination of sequential and parallel
passes. -/
theorem kalman_smoother_conditional {K : Type*} (qr : QR) (rng rng' : Prng K) (parallel parallel' : Bool)
    (key key' : Option K) {T : ℕ} (hT : 0 < T) (m0 : Fin nx → ℝ) (cholP0 : Matrix (Fin nx) (Fin nx) ℝ)
    (θ : Fin T → Par nx ny) (hQ : ∀ t, (θ t).cholQ.det ≠ 0) (hR : ∀ t, (θ t).cholR.det ≠ 0) (u₀ : Step nx ny)
    (opts : SmootherOpts nx (Step nx ny)) (t : ℕ) (ht : t ≤ T) :
    ∃ (m : (Fin T → Fin ny → ℝ) → Fin nx → ℝ) (L : (Fin T → Fin ny → ℝ) → Matrix (Fin nx) (Fin nx) ℝ),
      (∀ y, ∃ fs states s, (filter rng (buildFilter qr (dataCallbacks m0 cholP0)) (u₀ :: stepsOf θ y) parallel
          key).result = .ok fs ∧
        (smoother rng' FilterState.modelInputs (fun u => .ok (opts.dummy u))
          (buildSmoother qr (dataCallbacks (ny := ny) m0 cholP0).getDynamics opts) fs none parallel' key').result =
            .ok states ∧
        states[t]? = some s ∧ s.mean = some (m y) ∧ s.cholCov = some (L y)) ∧
      ∀ (φ : (Fin nx → ℝ) → ℝ≥0∞) (ψ : (Fin T → Fin ny → ℝ) → ℝ≥0∞), Measurable φ → Measurable ψ →
        simExp m0 cholP0 θ (fun p y => φ (p t) * ψ y) =
          simExp m0 cholP0 θ (fun _ y => (∫⁻ x, φ x ∂gauss (m y) (L y)) * ψ y) := by
  have hlen : ∀ y, (stepsOf θ y).length = T := fun y => by simp [stepsOf]
  have hex : ∀ y, ∃ m L l, (∃ fs states s, (filter rng (buildFilter qr (dataCallbacks m0 cholP0))
      (u₀ :: stepsOf θ y) parallel key).result = .ok fs ∧
        (smoother rng' FilterState.modelInputs (fun u => .ok (opts.dummy u))
          (buildSmoother qr (dataCallbacks (ny := ny) m0 cholP0).getDynamics opts) fs none parallel' key').result =
            .ok states ∧ states[t]? = some s ∧ s.mean = some m ∧ s.cholCov = some L) ∧
        ∀ φ : (Fin nx → ℝ) → ℝ≥0∞, Measurable φ →
          jointExp m0 cholP0 (stepsOf θ y) (fun p => φ (p t)) =
            ENNReal.ofReal (Real.exp l) * ∫⁻ x, φ x ∂gauss m L := fun y => by
    obtain ⟨fs, h1, -, -⟩ := kalman_filter_exact qr rng (dataCallbacks m0 cholP0) u₀ (stepsOf θ y) parallel key
      (stepsOf_R θ hR y)
    obtain ⟨states, l, h2, -, h3, -⟩ := kalman_smoother_exact qr rng rng' (dataCallbacks m0 cholP0) u₀
      (stepsOf θ y) (by intro h; have := hlen y; rw [h] at this; simp at this; omega) parallel parallel' key key' opts
      (stepsOf_R θ hR y) fs h1 (fun t s L u _ _ hu => by
        have hu' := List.mem_of_getElem? hu
        rw [stepsOf, List.mem_ofFn] at hu'
        obtain ⟨t', rfl⟩ := hu'
        rw [add_comm]
        refine (isGram_of _).det_add_ne_zero ?_ ((isGram_of L).conj _)
        rw [Matrix.det_mul, Matrix.det_transpose]
        exact mul_ne_zero (hQ t') (hQ t')) none (Or.inl rfl)
    obtain ⟨s, m, L, hs, hm, hL, hj⟩ := h3 t (by rw [hlen]; exact ht)
    refine ⟨m, L, l, ⟨fs, states, s, h1, h2, hs, hm, hL⟩, fun φ hφ => ?_⟩
    have := hj φ hφ
    rwa [stepOf_data, List.map_id] at this
  choose m L l h1 h2 using hex
  exact ⟨m, L, h1, fun φ ψ hφ hψ => (conditional_of_joint m0 cholP0 θ hR t m L l h2 hφ hψ).1⟩

/-- A scalar model meets the hypotheses of the three theorems. -/
example : ∃ θ : Fin 3 → Par 1 1, (∀ t, (θ t).cholQ.det ≠ 0) ∧ ∀ t, (θ t).cholR.det ≠ 0 :=
  ⟨fun _ => ⟨1, 0, 1, 1, 0, 1⟩, by simp, by simp⟩

/-! ## The filter on a generated model -/

instance (nx ny T : ℕ) : IsProbabilityMeasure (noiseLaw nx ny T) := by unfold noiseLaw; infer_instance

theorem lower_above {n : ℕ} (u : Fin n → Fin n → ℝ) {i j : Fin n} (h : i < j) : lower u i j = 0 := by
  simp only [lower, Matrix.of_apply]
  exact if_neg (not_le.2 h)

/-- Almost every seed generates a regular model: a lower triangular initial factor with non-zero diagonal
and nonsingular noises. -/
theorem lgssm_regular {K : Type*} [MeasurableSpace K] {rng : GenRng K} {P : Measure K} (h : IdealGen rng P)
    (nx ny T : ℕ) : ∀ᵐ k ∂P, IsLower (lgssm rng k nx ny T).2.1 ∧ (∀ i, (lgssm rng k nx ny T).2.1 i i ≠ 0) ∧
      ∀ r ∈ (lgssm rng k nx ny T).2.2, r.cholQ.det ≠ 0 ∧ r.cholR.det ≠ 0 := by
  obtain ⟨raw, noise, hmp, heq⟩ := lgssm_is_simulation h nx ny T
  have hraw : MeasurePreserving raw P (rawLaw nx ny T) := measurePreserving_fst.comp hmp
  have hdet : ∀ {n : ℕ} {u : Fin n → Fin n → ℝ}, (∀ i, lower u i i ≠ 0) → (lower u).det ≠ 0 := fun {n u} hu => by
    rw [Matrix.det_of_isLowerTriangular _ fun i j hij => lower_above u hij]
    exact Finset.prod_ne_zero_iff.2 fun i _ => hu i
  have h0 : ∀ᵐ k ∂P, ∀ i, lower (raw k).1.2 i i ≠ 0 :=
    (measurePreserving_snd.comp (measurePreserving_fst.comp hraw)).quasiMeasurePreserving.ae (unifM_diag nx)
  have hstep : ∀ t, MeasurePreserving (fun k => (raw k).2 t) P _ := fun t =>
    (measurePreserving_eval _ t).comp (measurePreserving_snd.comp hraw)
  have h1 : ∀ᵐ k ∂P, ∀ t, ∀ i, lower ((raw k).2 t).1.2.2 i i ≠ 0 := by
    rw [ae_all_iff]
    intro t
    exact (measurePreserving_snd.comp (measurePreserving_snd.comp
      (measurePreserving_fst.comp (hstep t)))).quasiMeasurePreserving.ae (unifM_diag nx)
  have h2 : ∀ᵐ k ∂P, ∀ t, ∀ i, lower ((raw k).2 t).2.2.2 i i ≠ 0 := by
    rw [ae_all_iff]
    intro t
    exact (measurePreserving_snd.comp (measurePreserving_snd.comp
      (measurePreserving_snd.comp (hstep t)))).quasiMeasurePreserving.ae (unifM_diag ny)
  filter_upwards [h0, h1, h2] with k k0 k1 k2
  rw [heq]
  refine ⟨fun i j hij => lower_above _ hij, k0, fun r hr => ?_⟩
  rw [List.mem_ofFn] at hr
  obtain ⟨t, rfl⟩ := hr
  exact ⟨hdet (k1 t), hdet (k2 t)⟩

/-- The model inputs made of one generated row. -/
def Row.toStep (r : Row nx ny) : Step nx ny := ⟨r.F, r.c, r.cholQ, r.H, r.d, r.cholR, fun i => some (r.y i)⟩

/-- **C63.** On almost every generated model the Kalman filter, in both modes, is exact with a finite log
normalising constant at every time. -/
theorem lgssm_filter_exact {K : Type*} [MeasurableSpace K] {rng : GenRng K} {P : Measure K} (h : IdealGen rng P)
    (qr : QR) (frng : Prng K) (parallel : Bool) (key : Option K) (nx ny T : ℕ) (u₀ : Step nx ny) : ∀ᵐ k ∂P,
      ∃ states, (filter frng (buildFilter qr (dataCallbacks (lgssm rng k nx ny T).1 (lgssm rng k nx ny T).2.1))
          (u₀ :: (lgssm rng k nx ny T).2.2.map Row.toStep) parallel key).result = .ok states ∧
        states.length = T + 1 ∧
        ∀ t ≤ T, ∃ s m L l, states[t]? = some s ∧ s.mean = some m ∧ s.cholCov = some L ∧
          s.logNormalizingConstant = some l ∧
          ∀ φ : (Fin nx → ℝ) → ℝ≥0∞, Measurable φ →
            jointExp (lgssm rng k nx ny T).1 (lgssm rng k nx ny T).2.1
                (((lgssm rng k nx ny T).2.2.map Row.toStep).take t) (fun p => φ (p t)) =
              ENNReal.ofReal (Real.exp l) * ∫⁻ x, φ x ∂gauss m L := by
  filter_upwards [lgssm_regular h nx ny T] with k hk
  obtain ⟨hlow, hdiag, hrows⟩ := hk
  have hlen := lgssm_length rng k nx ny T
  obtain ⟨states, h1, h2, h3⟩ := kalman_filter_exact qr frng
    (dataCallbacks (lgssm rng k nx ny T).1 (lgssm rng k nx ny T).2.1) u₀
    ((lgssm rng k nx ny T).2.2.map Row.toStep) parallel key (fun u hu => by
      obtain ⟨r, hr, rfl⟩ := List.mem_map.1 hu
      exact stepAt_R ⟨r.F, r.c, r.cholQ, r.H, r.d, r.cholR⟩ r.y (hrows r hr).2)
  rw [List.length_map, hlen] at h2 h3
  refine ⟨states, h1, h2, fun t ht => ?_⟩
  obtain ⟨s, m, L, l, hs, hm, hL, hj, hl⟩ := h3 t ht
  refine ⟨s, m, L, l, hs, hm, hL, (hl hlow).2 hdiag fun u hu => Or.inr ?_, fun φ hφ => ?_⟩
  · obtain ⟨r, hr, rfl⟩ := List.mem_map.1 hu
    rw [show (stepOf (dataCallbacks _ _) r.toStep).cholQ = r.cholQ from rfl, Matrix.det_mul, Matrix.det_transpose]
    exact mul_ne_zero (hrows r hr).1 (hrows r hr).1
  · have := hj φ hφ
    rwa [stepOf_data, List.map_id] at this

/-- Ideal random numbers exist. -/
example : ∃ (rng : GenRng GKey) (P : Measure GKey), IdealGen rng P := ⟨_, _, gkeyRng_ideal⟩

end

end Generate
end Cuthbert
