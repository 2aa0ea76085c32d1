import Verif.Props.Simulation
import Verif.Spec.LeastSquares
import Verif.Props.Calibration
import Mathlib.MeasureTheory.Function.L1Space.Integrable
import Mathlib.MeasureTheory.Integral.Bochner.Basic
import Mathlib.MeasureTheory.Function.L2Space

/-!
# The weighted path law as a measure, changes of model, and quadratic functions of Gaussian vectors
-/

namespace Cuthbert
open MeasureTheory ProbabilityTheory Matrix Cuthbert.Spec
open scoped ENNReal

noncomputable section

variable {nx ny : ℕ}

theorem pathExp_tsum (ss : List (Step nx ny)) (f : ℕ → (ℕ → Fin nx → ℝ) → ℝ≥0∞) (hf : ∀ n, Measurable (f n))
    (x : Fin nx → ℝ) : pathExp ss (fun p => ∑' n, f n p) x = ∑' n, pathExp ss (f n) x := by
  have hm : Measurable fun q : ℕ × (ℕ → Fin nx → ℝ) => f q.1 q.2 := measurable_from_prod_countable_right fun n => hf n
  have h := pathExp_swap ss (Measure.count : Measure ℕ) hm x
  simp only [lintegral_count] at h
  exact h.symm

theorem jointExp_tsum (m0 : Fin nx → ℝ) (L0 : Matrix (Fin nx) (Fin nx) ℝ) (ss : List (Step nx ny))
    (f : ℕ → (ℕ → Fin nx → ℝ) → ℝ≥0∞) (hf : ∀ n, Measurable (f n)) :
    jointExp m0 L0 ss (fun p => ∑' n, f n p) = ∑' n, jointExp m0 L0 ss (f n) := by
  simp only [jointExp, pathExp_tsum ss f hf]
  exact lintegral_tsum fun n => (measurable_pathExp' ss (hf n)).aemeasurable

theorem pathExp_zero (ss : List (Step nx ny)) : ∀ x, pathExp ss (fun _ => 0) x = 0 := by
  induction ss with
  | nil => exact fun x => rfl
  | cons s ss ih =>
    intro x
    simp only [pathExp, ih, mul_zero, lintegral_zero]

/-- `f ↦ E[f(x_0..x_T) ∏ p(y_t | x_t)]` as a measure on paths. -/
def jointMeasure (m0 : Fin nx → ℝ) (L0 : Matrix (Fin nx) (Fin nx) ℝ) (ss : List (Step nx ny)) :
    Measure (ℕ → Fin nx → ℝ) :=
  Measure.ofMeasurable (fun A _ => jointExp m0 L0 ss (A.indicator 1))
    (by
      have : (Set.indicator ∅ 1 : (ℕ → Fin nx → ℝ) → ℝ≥0∞) = fun _ => 0 := by simp
      simp only [this, jointExp, pathExp_zero, lintegral_zero])
    (by
      intro A hA hd
      have : (Set.indicator (⋃ i, A i) 1 : (ℕ → Fin nx → ℝ) → ℝ≥0∞) = fun p => ∑' n, (A n).indicator 1 p := by
        funext p
        classical
        by_cases h : ∃ i, p ∈ A i
        · obtain ⟨i, hi⟩ := h
          rw [Set.indicator_of_mem (Set.mem_iUnion.mpr ⟨i, hi⟩), tsum_eq_single i, Set.indicator_of_mem hi]
          intro j hj
          exact Set.indicator_of_notMem (fun hj' => Set.disjoint_left.mp (hd hj) hj' hi) _
        · push Not at h
          rw [Set.indicator_of_notMem (by simpa using h)]
          simp [Set.indicator_of_notMem (h _)]
      simp only [this]
      exact jointExp_tsum m0 L0 ss _ fun n => measurable_one.indicator (hA n))

theorem jointMeasure_apply (m0 : Fin nx → ℝ) (L0 : Matrix (Fin nx) (Fin nx) ℝ) (ss : List (Step nx ny))
    {A : Set (ℕ → Fin nx → ℝ)} (hA : MeasurableSet A) :
    jointMeasure m0 L0 ss A = jointExp m0 L0 ss (A.indicator 1) :=
  Measure.ofMeasurable_apply A hA

theorem jointExp_add (m0 : Fin nx → ℝ) (L0 : Matrix (Fin nx) (Fin nx) ℝ) (ss : List (Step nx ny))
    {f g : (ℕ → Fin nx → ℝ) → ℝ≥0∞} (hf : Measurable f) (hg : Measurable g) :
    jointExp m0 L0 ss (fun p => f p + g p) = jointExp m0 L0 ss f + jointExp m0 L0 ss g := by
  have h := jointExp_tsum m0 L0 ss (fun n => if n = 0 then f else if n = 1 then g else fun _ => 0)
    (fun n => by split_ifs <;> first | assumption | exact measurable_const)
  have h1 : ∀ φ : ℕ → ℝ≥0∞, (∀ n, n ≠ 0 → n ≠ 1 → φ n = 0) → ∑' n, φ n = φ 0 + φ 1 := by
    intro φ hφ
    rw [tsum_eq_sum (s := {0, 1}) (fun n hn => hφ n (by simp at hn; tauto) (by simp at hn; tauto))]
    simp
  rw [h1 _ (by
    intro n h0 h1
    simp only [h0, h1, if_false, jointExp, pathExp_zero, lintegral_zero])] at h
  simp only [if_true, one_ne_zero, if_false] at h
  rw [← h]
  congr 1
  funext p
  rw [h1 _ (by intro n h0 h1; simp [h0, h1])]
  simp

theorem lintegral_jointMeasure (m0 : Fin nx → ℝ) (L0 : Matrix (Fin nx) (Fin nx) ℝ) (ss : List (Step nx ny))
    {f : (ℕ → Fin nx → ℝ) → ℝ≥0∞} (hf : Measurable f) :
    ∫⁻ p, f p ∂jointMeasure m0 L0 ss = jointExp m0 L0 ss f := by
  have hs : ∀ g : SimpleFunc (ℕ → Fin nx → ℝ) NNReal,
      ∫⁻ p, (g p : ℝ≥0∞) ∂jointMeasure m0 L0 ss = jointExp m0 L0 ss fun p => (g p : ℝ≥0∞) := by
    intro g
    induction g using SimpleFunc.induction with
    | const c hA =>
      rename_i A
      have h1 : (fun p => ((SimpleFunc.piecewise A hA (SimpleFunc.const (ℕ → Fin nx → ℝ) c)
          (SimpleFunc.const (ℕ → Fin nx → ℝ) 0) p : NNReal) : ℝ≥0∞)) =
          fun p => A.indicator 1 p * (c : ℝ≥0∞) := by
        funext p
        by_cases hp : p ∈ A <;> simp [hp]
      have hm : Measurable (A.indicator (1 : (ℕ → Fin nx → ℝ) → ℝ≥0∞)) := measurable_one.indicator hA
      rw [h1, Generate.jointExp_mul_const _ _ _ hm, lintegral_mul_const _ hm, lintegral_indicator_one hA, jointMeasure_apply _ _ _ hA]
    | add hd hg hh =>
      rename_i g h
      have hmg : Measurable fun p => (g p : ℝ≥0∞) := g.measurable.coe_nnreal_ennreal
      have hmh : Measurable fun p => (h p : ℝ≥0∞) := h.measurable.coe_nnreal_ennreal
      simp only [SimpleFunc.coe_add, Pi.add_apply, ENNReal.coe_add]
      rw [jointExp_add _ _ _ hmg hmh, lintegral_add_left hmg, hg, hh]
  have hm : ∀ n, Measurable fun p => (SimpleFunc.eapproxDiff f n p : ℝ≥0∞) :=
    fun n => (SimpleFunc.eapproxDiff f n).measurable.coe_nnreal_ennreal
  rw [show f = fun p => ∑' n, (SimpleFunc.eapproxDiff f n p : ℝ≥0∞) from
    funext fun p => (SimpleFunc.tsum_eapproxDiff f hf p).symm,
    jointExp_tsum _ _ _ _ hm, lintegral_tsum fun n => (hm n).aemeasurable]
  exact tsum_congr fun n => hs _

/-! ## Changing the model -/

theorem measurable_gaussLogDensity_of {Ω ι : Type*} [MeasurableSpace Ω] [Fintype ι] [DecidableEq ι] (S : Matrix ι ι ℝ)
    {u v : Ω → ι → ℝ} (hu : Measurable u) (hv : Measurable v) :
    Measurable fun ω => gaussLogDensity (u ω) S (v ω) := by
  have hui : ∀ i, Measurable fun ω => u ω i := fun i => (measurable_pi_apply i).comp hu
  have hvi : ∀ i, Measurable fun ω => v ω i := fun i => (measurable_pi_apply i).comp hv
  simp only [gaussLogDensity, Matrix.mulVec, dotProduct, Pi.sub_apply]
  refine ((Measurable.const_mul ?_ _).sub_const _).sub_const _
  exact Finset.measurable_sum _ fun i _ => ((hvi i).sub (hui i)).mul
    (Finset.measurable_sum _ fun j _ => ((hvi j).sub (hui j)).const_mul _)

theorem measurable_logDensityFrom (ss : List (Step nx ny)) :
    Measurable fun p : ℕ → Fin nx → ℝ => logDensityFrom ss p := by
  induction ss with
  | nil => exact measurable_const
  | cons s ss ih =>
    have h1 : ∀ n, Measurable fun p : ℕ → Fin nx → ℝ => p n := fun n => measurable_pi_apply n
    have h2 : Measurable fun (p : ℕ → Fin nx → ℝ) n => p (n + 1) := measurable_pi_lambda _ fun n => h1 (n + 1)
    exact ((measurable_gaussLogDensity_of _ (((measurable_mulVec _).comp (h1 0)).add_const _) (h1 1)).add
      (measurable_gaussLogDensity_of _ (((measurable_mulVec _).comp (h1 1)).add_const _) measurable_const)).add
      (ih.comp h2)

/-- Weighting a path with the ratio of the two joint densities turns one model into another. -/
theorem pathExp_change : ∀ (ss ss' : List (Step nx ny)) (_ : ss.length = ss'.length) (_ : ∀ s ∈ ss, s.cholQ.det ≠ 0)
    (_ : ∀ s ∈ ss', s.cholQ.det ≠ 0) {f : (ℕ → Fin nx → ℝ) → ℝ≥0∞} (_ : Measurable f) (x : Fin nx → ℝ),
    pathExp ss' f x =
      pathExp ss (fun p => f p * ENNReal.ofReal (Real.exp (logDensityFrom ss' p - logDensityFrom ss p))) x
  | [], [], _, _, _, f, _, x => by simp [pathExp, logDensityFrom]
  | s :: ss, s' :: ss', hlen, hQ, hQ', f, hf, x => by
    have hm := gauss_eq_withDensity (s.F *ᵥ x + s.c) s.cholQ (hQ s (by simp))
    have hm' := gauss_eq_withDensity (s'.F *ᵥ x + s'.c) s'.cholQ (hQ' s' (by simp))
    have hD : Measurable fun p : ℕ → Fin nx → ℝ =>
        ENNReal.ofReal (Real.exp (logDensityFrom ss' p - logDensityFrom ss p)) :=
      ((measurable_logDensityFrom ss').sub (measurable_logDensityFrom ss)).exp.ennreal_ofReal
    have hc : Measurable (pathCons x : (ℕ → Fin nx → ℝ) → _) := by
      refine measurable_pi_lambda _ fun n => ?_
      cases n with
      | zero => exact measurable_const
      | succ n => exact measurable_pi_apply n
    have hfc : Measurable fun p => f (pathCons x p) := hf.comp hc
    have hd : ∀ σ : Step nx ny, Measurable fun x' : Fin nx → ℝ =>
        ENNReal.ofReal (Real.exp (gaussLogDensity (σ.F *ᵥ x + σ.c) (σ.cholQ * σ.cholQᵀ) x')) := fun σ =>
      (measurable_gaussLogDensity_of _ measurable_const measurable_id).exp.ennreal_ofReal
    have hl : ∀ σ : Step nx ny, Measurable σ.lik := fun σ =>
      (measurable_gaussLogDensity_of _ ((measurable_mulVec _).add_const _) measurable_const).exp.ennreal_ofReal
    have hD1 : Measurable fun p : ℕ → Fin nx → ℝ =>
        ENNReal.ofReal (Real.exp (logDensityFrom (s' :: ss') p - logDensityFrom (s :: ss) p)) :=
      ((measurable_logDensityFrom _).sub (measurable_logDensityFrom _)).exp.ennreal_ofReal
    have hprod : Measurable fun p => f p *
        ENNReal.ofReal (Real.exp (logDensityFrom (s' :: ss') p - logDensityFrom (s :: ss) p)) := hf.mul hD1
    have hI' : Measurable fun x' => s'.lik x' * pathExp ss' (fun p => f (pathCons x p)) x' :=
      (hl s').mul (measurable_pathExp' ss' hfc)
    have hI : Measurable fun x' => s.lik x' * pathExp ss (fun p => f (pathCons x p) * ENNReal.ofReal (Real.exp
        (logDensityFrom (s' :: ss') (pathCons x p) - logDensityFrom (s :: ss) (pathCons x p)))) x' :=
      (hl s).mul (measurable_pathExp' ss (hprod.comp hc))
    rw [pathExp, pathExp, hm, hm', lintegral_withDensity_eq_lintegral_mul _ (hd s') hI',
      lintegral_withDensity_eq_lintegral_mul _ (hd s) hI]
    refine lintegral_congr fun x' => ?_
    obtain ⟨r, hr⟩ : ∃ r, r = (gaussLogDensity (s'.F *ᵥ x + s'.c) (s'.cholQ * s'.cholQᵀ) x' +
      gaussLogDensity (obsH s'.y s'.H *ᵥ x' + obsV s'.y s'.d) s'.R (obsY s'.y)) -
      (gaussLogDensity (s.F *ᵥ x + s.c) (s.cholQ * s.cholQᵀ) x' +
      gaussLogDensity (obsH s.y s.H *ᵥ x' + obsV s.y s.d) s.R (obsY s.y)) := ⟨_, rfl⟩
    have h1 : pathExp ss (fun p => f (pathCons x p) * ENNReal.ofReal (Real.exp
          (logDensityFrom (s' :: ss') (pathCons x p) - logDensityFrom (s :: ss) (pathCons x p)))) x' =
        pathExp ss (fun p => f (pathCons x p) *
          ENNReal.ofReal (Real.exp (logDensityFrom ss' p - logDensityFrom ss p))) x' *
          ENNReal.ofReal (Real.exp r) := by
      have hfD : Measurable fun p => f (pathCons x p) *
          ENNReal.ofReal (Real.exp (logDensityFrom ss' p - logDensityFrom ss p)) := hfc.mul hD
      rw [← Generate.pathExp_mul_const ss _ hfD]
      refine pathExp_congr_head ss x' _ _ fun p hp => ?_
      rw [mul_assoc, ← ENNReal.ofReal_mul (Real.exp_nonneg _), ← Real.exp_add]
      congr 3
      simp only [logDensityFrom, pathCons, hp, hr]
      ring
    simp only [Pi.mul_apply]
    rw [h1, ← pathExp_change ss ss' (by simpa using hlen) (fun σ h => hQ σ (by simp [h]))
      (fun σ h => hQ' σ (by simp [h])) hfc x']
    have h2 : ENNReal.ofReal (Real.exp (gaussLogDensity (s'.F *ᵥ x + s'.c) (s'.cholQ * s'.cholQᵀ) x')) * s'.lik x' =
        ENNReal.ofReal (Real.exp (gaussLogDensity (s.F *ᵥ x + s.c) (s.cholQ * s.cholQᵀ) x')) * s.lik x' *
          ENNReal.ofReal (Real.exp r) := by
      simp only [Step.lik]
      rw [← ENNReal.ofReal_mul (Real.exp_nonneg _), ← ENNReal.ofReal_mul (Real.exp_nonneg _),
        ← ENNReal.ofReal_mul (by positivity), ← Real.exp_add, ← Real.exp_add, ← Real.exp_add, hr]
      congr 2
      ring
    rw [← mul_assoc, h2]
    ring

theorem jointExp_change (m0 m0' : Fin nx → ℝ) (L0 L0' : Matrix (Fin nx) (Fin nx) ℝ) (ss ss' : List (Step nx ny))
    (hlen : ss.length = ss'.length) (h0 : L0.det ≠ 0) (h0' : L0'.det ≠ 0) (hQ : ∀ s ∈ ss, s.cholQ.det ≠ 0)
    (hQ' : ∀ s ∈ ss', s.cholQ.det ≠ 0) {f : (ℕ → Fin nx → ℝ) → ℝ≥0∞} (hf : Measurable f) :
    jointExp m0' L0' ss' f = jointExp m0 L0 ss fun p =>
      f p * ENNReal.ofReal (Real.exp (pathLogDensity m0' L0' ss' p - pathLogDensity m0 L0 ss p)) := by
  have hd : ∀ m L, Measurable fun x : Fin nx → ℝ => ENNReal.ofReal (Real.exp (gaussLogDensity m (L * Lᵀ) x)) :=
    fun m L => (measurable_gaussLogDensity_of _ measurable_const measurable_id).exp.ennreal_ofReal
  have hD : Measurable fun p : ℕ → Fin nx → ℝ =>
      ENNReal.ofReal (Real.exp (logDensityFrom ss' p - logDensityFrom ss p)) :=
    ((measurable_logDensityFrom ss').sub (measurable_logDensityFrom ss)).exp.ennreal_ofReal
  have hp0 : Measurable fun p : ℕ → Fin nx → ℝ => p 0 := measurable_pi_apply 0
  have hD1 : Measurable fun p : ℕ → Fin nx → ℝ =>
      ENNReal.ofReal (Real.exp (pathLogDensity m0' L0' ss' p - pathLogDensity m0 L0 ss p)) := by
    have h : ∀ m L σ, Measurable fun p : ℕ → Fin nx → ℝ => pathLogDensity m L (σ : List (Step nx ny)) p := fun m L σ =>
      (measurable_gaussLogDensity_of _ measurable_const hp0).add (measurable_logDensityFrom σ)
    exact ((h _ _ _).sub (h _ _ _)).exp.ennreal_ofReal
  have hprod : Measurable fun p => f p *
      ENNReal.ofReal (Real.exp (pathLogDensity m0' L0' ss' p - pathLogDensity m0 L0 ss p)) := hf.mul hD1
  rw [jointExp, jointExp, gauss_eq_withDensity _ _ h0, gauss_eq_withDensity _ _ h0',
    lintegral_withDensity_eq_lintegral_mul _ (hd _ _) (measurable_pathExp' _ hf),
    lintegral_withDensity_eq_lintegral_mul _ (hd _ _) (measurable_pathExp' _ hprod)]
  refine lintegral_congr fun x => ?_
  have h1 : pathExp ss (fun p => f p *
        ENNReal.ofReal (Real.exp (pathLogDensity m0' L0' ss' p - pathLogDensity m0 L0 ss p))) x =
      pathExp ss (fun p => f p * ENNReal.ofReal (Real.exp (logDensityFrom ss' p - logDensityFrom ss p))) x *
        ENNReal.ofReal (Real.exp (gaussLogDensity m0' (L0' * L0'ᵀ) x - gaussLogDensity m0 (L0 * L0ᵀ) x)) := by
    have hfD : Measurable fun p => f p *
        ENNReal.ofReal (Real.exp (logDensityFrom ss' p - logDensityFrom ss p)) := hf.mul hD
    rw [← Generate.pathExp_mul_const ss _ hfD]
    refine pathExp_congr_head ss x _ _ fun p hp => ?_
    rw [mul_assoc, ← ENNReal.ofReal_mul (Real.exp_nonneg _), ← Real.exp_add]
    congr 3
    simp only [pathLogDensity, hp]
    ring
  simp only [Pi.mul_apply]
  rw [h1, ← pathExp_change ss ss' hlen hQ hQ' hf x]
  have h2 : ENNReal.ofReal (Real.exp (gaussLogDensity m0' (L0' * L0'ᵀ) x)) =
      ENNReal.ofReal (Real.exp (gaussLogDensity m0 (L0 * L0ᵀ) x)) *
        ENNReal.ofReal (Real.exp (gaussLogDensity m0' (L0' * L0'ᵀ) x - gaussLogDensity m0 (L0 * L0ᵀ) x)) := by
    rw [← ENNReal.ofReal_mul (Real.exp_nonneg _), ← Real.exp_add]
    congr 2
    ring
  rw [h2]
  ring

/-! ## Quadratic functions of Gaussian vectors -/

theorem memLp_gauss_coord {ι κ : Type*} [Fintype ι] [Fintype κ] (m : ι → ℝ) (L : Matrix ι κ ℝ) (i : ι) :
    MemLp (fun x : ι → ℝ => x i) 2 (gauss m L) := by
  classical
  have hf := Generate.gauss_functional m L (Pi.single i 1)
  simp only [single_one_dotProduct] at hf
  have h : MemLp (fun z : ℝ => z) 2 ((gauss m L).map fun x => x i) := by
    rw [hf]; exact memLp_id_gaussianReal 2
  exact h.comp_of_map (measurable_pi_apply i).aemeasurable

theorem integrable_gaussLogDensity {Ω ι : Type*} [MeasurableSpace Ω] [Fintype ι] [DecidableEq ι] {μ : Measure Ω}
    [IsFiniteMeasure μ] (S : Matrix ι ι ℝ) {u v : Ω → ι → ℝ} (hu : ∀ i, MemLp (fun ω => u ω i) 2 μ)
    (hv : ∀ i, MemLp (fun ω => v ω i) 2 μ) : Integrable (fun ω => gaussLogDensity (u ω) S (v ω)) μ := by
  have hd : ∀ i, MemLp (fun ω => v ω i - u ω i) 2 μ := fun i => (hv i).sub (hu i)
  simp only [gaussLogDensity, Matrix.mulVec, dotProduct, Pi.sub_apply]
  refine ((Integrable.const_mul ?_ _).sub (integrable_const _)).sub (integrable_const _)
  refine integrable_finsetSum _ fun i _ => ?_
  refine MemLp.integrable_mul (p := 2) (q := 2) (hd i) ?_
  exact memLp_finsetSum _ fun j _ => (hd j).const_mul _

theorem memLp_mulVec {Ω ι o : Type*} [MeasurableSpace Ω] [Fintype ι] {μ : Measure Ω}
    [IsFiniteMeasure μ] (A : Matrix o ι ℝ) (b : o → ℝ) {u : Ω → ι → ℝ} (hu : ∀ i, MemLp (fun ω => u ω i) 2 μ) (k : o) :
    MemLp (fun ω => (A *ᵥ u ω + b) k) 2 μ := by
  simp only [Matrix.mulVec, dotProduct, Pi.add_apply]
  exact (memLp_finsetSum _ fun j _ => (hu j).const_mul _).add (memLp_const _)

end

end Cuthbert
