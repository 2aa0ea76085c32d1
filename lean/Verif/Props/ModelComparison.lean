import Verif.Lemmas.Ville
import Verif.Props.Simulation

/-!
# Property C134: comparing models by their log normalising constants (Kalman filter)

Data are simulated from one model and the Kalman filter is run on them with the parameters of this and of another
model.
-/

namespace Cuthbert.Generate
open MeasureTheory ProbabilityTheory Matrix Kalman Spec Compare
open scoped ENNReal

noncomputable section

variable {nx nx' ny : ℕ}

/-- The first `t` observations do not depend on the later noise. -/
theorem simulate_prefix : ∀ {T : ℕ} (t : ℕ) (h : t ≤ T) (θ : Fin T → Par nx ny) (x : Fin nx → ℝ)
    (e : Fin T → (Fin nx → ℝ) × (Fin ny → ℝ)),
    short t h (simulate T θ x e) = simulate t (short t h θ) x (short t h e)
  | T, 0, h, θ, x, e => funext fun i => i.elim0
  | T + 1, t + 1, h, θ, x, e => by
    have ih := simulate_prefix t (Nat.le_of_succ_le_succ h) (fun i => θ i.succ)
      ((θ 0).F *ᵥ x + (θ 0).c + (θ 0).cholQ *ᵥ (e 0).1) (fun i => e i.succ)
    funext i
    refine Fin.cases ?_ (fun i => ?_) i
    · rfl
    · exact congrFun ih i

/-- The first `t` of independent variables are independent. -/
theorem lintegral_short {V : Type} [MeasurableSpace V] (ν : Measure V) [IsProbabilityMeasure ν] :
    ∀ {T : ℕ} (t : ℕ) (h : t ≤ T) {f : (Fin t → V) → ℝ≥0∞}, Measurable f →
      ∫⁻ e, f (short t h e) ∂(Measure.pi fun _ : Fin T => ν) = ∫⁻ e, f e ∂(Measure.pi fun _ : Fin t => ν)
  | T, 0, h, f, hf => by
    have e0 : ∀ z : Fin 0 → V, f z = f Fin.elim0 := fun z => congrArg f (Subsingleton.elim _ _)
    have h1 : ∀ e : Fin T → V, f (short 0 h e) = f Fin.elim0 := fun e => e0 _
    simp only [h1, e0, lintegral_const, measure_univ]
  | T + 1, t + 1, h, f, hf => by
    rw [lintegral_pi_succ ν hf, lintegral_pi_succ ν (F := fun e => f (short (t + 1) h e)) (hf.comp (measurable_short _ _))]
    refine lintegral_congr fun v => ?_
    have hc : Measurable fun z : Fin t → V => f (Fin.cons v z) := hf.comp (measurable_cons measurable_const measurable_id)
    rw [← lintegral_short ν t (Nat.le_of_succ_le_succ h) hc]
    refine lintegral_congr fun e => ?_
    congr 1
    funext i
    refine Fin.cases ?_ (fun i => ?_) i <;> rfl

/-- The law of the simulated observations. -/
def dataLaw {T : ℕ} (m0 : Fin nx → ℝ) (cholP0 : Matrix (Fin nx) (Fin nx) ℝ) (θ : Fin T → Par nx ny) :
    Measure (Fin T → Fin ny → ℝ) :=
  (noiseLaw nx ny T).map fun e => simulate T θ (m0 + cholP0 *ᵥ e.1) e.2

theorem measurable_simulation {T : ℕ} (m0 : Fin nx → ℝ) (cholP0 : Matrix (Fin nx) (Fin nx) ℝ) (θ : Fin T → Par nx ny) :
    Measurable fun e : (Fin nx → ℝ) × (Fin T → (Fin nx → ℝ) × (Fin ny → ℝ)) => simulate T θ (m0 + cholP0 *ᵥ e.1) e.2 :=
  (measurable_simulate θ ((measurable_affine m0 cholP0).comp measurable_fst) measurable_snd).2

instance {T : ℕ} (m0 : Fin nx → ℝ) (cholP0 : Matrix (Fin nx) (Fin nx) ℝ) (θ : Fin T → Par nx ny) :
    IsProbabilityMeasure (dataLaw m0 cholP0 θ) :=
  Measure.isProbabilityMeasure_map (measurable_simulation m0 cholP0 θ).aemeasurable

/-- The log of `E[∏ p(z_i | x_i)]`. -/
def logEv {T : ℕ} (m0 : Fin nx → ℝ) (cholP0 : Matrix (Fin nx) (Fin nx) ℝ) (θ : Fin T → Par nx ny) (z : Fin T → Fin ny → ℝ) :
    ℝ := Real.log (jointExp m0 cholP0 (stepsOf θ z) fun _ => 1).toReal

theorem measurable_logEv {T : ℕ} (m0 : Fin nx → ℝ) (cholP0 : Matrix (Fin nx) (Fin nx) ℝ) (θ : Fin T → Par nx ny) :
    Measurable (logEv m0 cholP0 θ) :=
  Real.measurable_log.comp (ENNReal.measurable_toReal.comp
    (measurable_jointExp m0 cholP0 θ (f := fun _ => 1) measurable_const))

theorem stepsOf_take {T : ℕ} (t : ℕ) (h : t ≤ T) (θ : Fin T → Par nx ny) (y : Fin T → Fin ny → ℝ) :
    (stepsOf θ y).take t = stepsOf (short t h θ) (short t h y) := by
  refine List.ext_getElem (by simp [stepsOf, h]) fun i h1 h2 => ?_
  simp [stepsOf, short]

/-- What the filter reports at time `t` is `logEv` of the first `t` observations. -/
theorem filter_logEv {K : Type*} (qr : QR) (rng : Prng K) (parallel : Bool) (key : Option K) {T : ℕ}
    (m0 : Fin nx → ℝ) (cholP0 : Matrix (Fin nx) (Fin nx) ℝ) (θ : Fin T → Par nx ny)
    (hP0 : IsLower cholP0) (hP0d : ∀ i, cholP0 i i ≠ 0) (hQ : ∀ t, (θ t).cholQ.det ≠ 0)
    (hR : ∀ t, (θ t).cholR.det ≠ 0) (u₀ : Step nx ny) (y : Fin T → Fin ny → ℝ) :
    ∃ states, (filter rng (buildFilter qr (dataCallbacks m0 cholP0)) (u₀ :: stepsOf θ y) parallel key).result = .ok states ∧
      ∀ t (ht : t ≤ T), ∃ s, states[t]? = some s ∧
        s.logNormalizingConstant = some (logEv m0 cholP0 (short t ht θ) (short t ht y)) ∧
        ENNReal.ofReal (Real.exp (logEv m0 cholP0 (short t ht θ) (short t ht y))) =
          jointExp m0 cholP0 (stepsOf (short t ht θ) (short t ht y)) fun _ => 1 := by
  have hlen : (stepsOf θ y).length = T := by simp [stepsOf]
  obtain ⟨states, h1, -, h3⟩ := kalman_filter_exact qr rng (dataCallbacks m0 cholP0) u₀ (stepsOf θ y) parallel key
    (stepsOf_R θ hR y)
  refine ⟨states, h1, fun t ht => ?_⟩
  obtain ⟨s, m, L, l, hs, -, -, hj, hl⟩ := h3 t (by rw [hlen]; exact ht)
  have hl' : s.logNormalizingConstant = some l := (hl hP0).2 hP0d fun u hu => Or.inr (by
    rw [stepsOf, List.mem_ofFn] at hu
    obtain ⟨t, rfl⟩ := hu
    rw [Matrix.det_mul, Matrix.det_transpose]
    exact mul_ne_zero (hQ t) (hQ t))
  have hj1 := hj (fun _ => 1) measurable_const
  rw [stepOf_data, List.map_id, stepsOf_take t ht, lintegral_const, measure_univ, mul_one, mul_one] at hj1
  have hj2 : jointExp m0 cholP0 (stepsOf (short t ht θ) (short t ht y)) (fun _ => 1) = ENNReal.ofReal (Real.exp l) := hj1
  have e : logEv m0 cholP0 (short t ht θ) (short t ht y) = l := by
    rw [logEv, hj2, ENNReal.toReal_ofReal (Real.exp_nonneg _), Real.log_exp]
  exact ⟨s, hs, by rw [e, hl'], by rw [e, hj2]⟩

/-- The densities of the simulated observations. -/
theorem dataLaw_densities {T : ℕ} (m0 : Fin nx → ℝ) (cholP0 : Matrix (Fin nx) (Fin nx) ℝ) (θ : Fin T → Par nx ny)
    (hR : ∀ t, (θ t).cholR.det ≠ 0) (a : ∀ t, (Fin t → Fin ny → ℝ) → ℝ)
    (ha : ∀ t (ht : t ≤ T) z, ENNReal.ofReal (Real.exp (a t z)) = jointExp m0 cholP0 (stepsOf (short t ht θ) z) fun _ => 1) :
    HasDensities (dataLaw m0 cholP0 θ) (fun _ => volume) a := by
  intro t ψ hψ
  have ht : (t : ℕ) ≤ T := Nat.le_of_lt_succ t.2
  have hpre : Measurable fun y : Fin T → Fin ny → ℝ => ψ (pre t y) := hψ.comp (measurable_pre t)
  rw [dataLaw, lintegral_map hpre (measurable_simulation m0 cholP0 θ)]
  have e1 : ∀ e : (Fin nx → ℝ) × (Fin T → (Fin nx → ℝ) × (Fin ny → ℝ)),
      pre t (simulate T θ (m0 + cholP0 *ᵥ e.1) e.2) =
        simulate t (short t ht θ) (m0 + cholP0 *ᵥ e.1) (short t ht e.2) := fun e => simulate_prefix t ht θ _ _
  simp only [e1]
  have hm : Measurable fun e : (Fin nx → ℝ) × (Fin t → (Fin nx → ℝ) × (Fin ny → ℝ)) =>
      ψ (simulate t (short t ht θ) (m0 + cholP0 *ᵥ e.1) e.2) := hψ.comp (measurable_simulation m0 cholP0 (short t ht θ))
  have hm' : Measurable fun e : (Fin nx → ℝ) × (Fin T → (Fin nx → ℝ) × (Fin ny → ℝ)) =>
      ψ (simulate t (short t ht θ) (m0 + cholP0 *ᵥ e.1) (short t ht e.2)) :=
    hm.comp (measurable_fst.prodMk ((measurable_short t.1 ht).comp measurable_snd))
  have h2 := simulation_law m0 cholP0 (short t ht θ) (fun i => hR _) (f := fun q => ψ q.2) (hψ.comp measurable_snd)
  have h3 : ∫⁻ e, ψ (simulate t (short t ht θ) (m0 + cholP0 *ᵥ e.1) (short t ht e.2)) ∂noiseLaw nx ny T =
      ∫⁻ e, ψ (simulate t (short t ht θ) (m0 + cholP0 *ᵥ e.1) e.2) ∂noiseLaw nx ny t := by
    rw [noiseLaw, noiseLaw, lintegral_prod _ hm'.aemeasurable, lintegral_prod _ hm.aemeasurable]
    refine lintegral_congr fun x => ?_
    exact lintegral_short _ t.1 ht (f := fun e => ψ (simulate t (short t ht θ) (m0 + cholP0 *ᵥ x) e))
      (hm.comp measurable_prodMk_left)
  rw [h3]
  refine h2.trans (lintegral_congr fun z => ?_)
  have h4 := jointExp_mul_const m0 cholP0 (stepsOf (short t ht θ) z) (f := fun _ => 1) measurable_const (ψ z)
  simp only [one_mul] at h4
  rw [h4, ha t ht z]

/-- **C134.** Simulate `T` observations from a linear-Gaussian model `A` and run the Kalman filter on them with the
parameters of `A` and with those of another model `B`, whose state may have another dimension. Let `a t` and `b t` be the
log normalising constants at time `t`.
* The probability that at any time `t ≤ T` the wrong model is ahead by `c` or more is at most `exp(-c)`. The bound does not
  depend on `T`: looking at the comparison after every observation and stopping at will does no harm.
* At every time the right model is on average ahead. The average is of `a t - b t`, given as the averages of its positive and
  negative parts, and strictly so unless the two agree with probability one. -/
theorem kalman_model_comparison {K : Type*} (qr : QR) (rng : Prng K) (parallel parallel' : Bool) (key key' : Option K) {T : ℕ}
    (m0 : Fin nx → ℝ) (cholP0 : Matrix (Fin nx) (Fin nx) ℝ) (θ : Fin T → Par nx ny)
    (hP0 : IsLower cholP0) (hP0d : ∀ i, cholP0 i i ≠ 0) (hQ : ∀ t, (θ t).cholQ.det ≠ 0) (hR : ∀ t, (θ t).cholR.det ≠ 0)
    (m0' : Fin nx' → ℝ) (cholP0' : Matrix (Fin nx') (Fin nx') ℝ) (θ' : Fin T → Par nx' ny)
    (hP0' : IsLower cholP0') (hP0d' : ∀ i, cholP0' i i ≠ 0) (hQ' : ∀ t, (θ' t).cholQ.det ≠ 0)
    (hR' : ∀ t, (θ' t).cholR.det ≠ 0) (u₀ : Step nx ny) (u₀' : Step nx' ny) :
    ∃ a b : ℕ → (Fin T → Fin ny → ℝ) → ℝ,
      (∀ y, ∃ states, (filter rng (buildFilter qr (dataCallbacks m0 cholP0)) (u₀ :: stepsOf θ y) parallel key).result =
        .ok states ∧ ∀ t ≤ T, ∃ s, states[t]? = some s ∧ s.logNormalizingConstant = some (a t y)) ∧
      (∀ y, ∃ states, (filter rng (buildFilter qr (dataCallbacks m0' cholP0')) (u₀' :: stepsOf θ' y) parallel' key').result =
        .ok states ∧ ∀ t ≤ T, ∃ s, states[t]? = some s ∧ s.logNormalizingConstant = some (b t y)) ∧
      (∀ c : ℝ, dataLaw m0 cholP0 θ {y | ∃ t ≤ T, c ≤ b t y - a t y} ≤ ENNReal.ofReal (Real.exp (-c))) ∧
      ∀ t ≤ T,
        ∫⁻ y, ENNReal.ofReal (b t y - a t y) ∂dataLaw m0 cholP0 θ ≤ ∫⁻ y, ENNReal.ofReal (a t y - b t y) ∂dataLaw m0 cholP0 θ ∧
        (∫⁻ y, ENNReal.ofReal (a t y - b t y) ∂dataLaw m0 cholP0 θ ≠ ∞ → ¬ (∀ᵐ y ∂dataLaw m0 cholP0 θ, b t y = a t y) →
          ∫⁻ y, ENNReal.ofReal (b t y - a t y) ∂dataLaw m0 cholP0 θ <
            ∫⁻ y, ENNReal.ofReal (a t y - b t y) ∂dataLaw m0 cholP0 θ) := by
  -- the log evidences as functions of the prefixes
  obtain ⟨a', ha'⟩ : ∃ a' : ∀ t, (Fin t → Fin ny → ℝ) → ℝ, a' = fun t z =>
    if h : t ≤ T then logEv m0 cholP0 (short t h θ) z else 0 := ⟨_, rfl⟩
  obtain ⟨b', hb'⟩ : ∃ b' : ∀ t, (Fin t → Fin ny → ℝ) → ℝ, b' = fun t z =>
    if h : t ≤ T then logEv m0' cholP0' (short t h θ') z else 0 := ⟨_, rfl⟩
  have ea : ∀ t (h : t ≤ T) z, a' t z = logEv m0 cholP0 (short t h θ) z := fun t h z => by rw [ha']; simp [h]
  have eb : ∀ t (h : t ≤ T) z, b' t z = logEv m0' cholP0' (short t h θ') z := fun t h z => by rw [hb']; simp [h]
  have hma : ∀ t, Measurable (a' t) := fun t => by
    by_cases h : t ≤ T
    · rw [funext (ea t h)]; exact measurable_logEv _ _ _
    · rw [ha']; simp only [h, dite_false]; exact measurable_const
  have hmb : ∀ t, Measurable (b' t) := fun t => by
    by_cases h : t ≤ T
    · rw [funext (eb t h)]; exact measurable_logEv _ _ _
    · rw [hb']; simp only [h, dite_false]; exact measurable_const
  have hA := dataLaw_densities m0 cholP0 θ hR a' fun t ht z => by
    obtain ⟨states, -, h⟩ := filter_logEv qr rng parallel key m0 cholP0 (short t ht θ) hP0 hP0d (fun i => hQ _) (fun i => hR _) u₀ z
    obtain ⟨s, -, -, h2⟩ := h t le_rfl
    rw [ea t ht]
    exact h2
  have hB := dataLaw_densities m0' cholP0' θ' hR' b' fun t ht z => by
    obtain ⟨states, -, h⟩ := filter_logEv qr rng parallel' key' m0' cholP0' (short t ht θ') hP0' hP0d' (fun i => hQ' _)
      (fun i => hR' _) u₀' z
    obtain ⟨s, -, -, h2⟩ := h t le_rfl
    rw [eb t ht]
    exact h2
  refine ⟨fun t y => if h : t ≤ T then a' t (short t h y) else 0, fun t y => if h : t ≤ T then b' t (short t h y) else 0,
    fun y => ?_, fun y => ?_, fun c => ?_, fun t ht => ?_⟩
  · obtain ⟨states, h1, h⟩ := filter_logEv qr rng parallel key m0 cholP0 θ hP0 hP0d hQ hR u₀ y
    refine ⟨states, h1, fun t ht => ?_⟩
    obtain ⟨s, h2, h3, -⟩ := h t ht
    exact ⟨s, h2, by simp only [ht, dite_true, ea t ht]; exact h3⟩
  · obtain ⟨states, h1, h⟩ := filter_logEv qr rng parallel' key' m0' cholP0' θ' hP0' hP0d' hQ' hR' u₀' y
    refine ⟨states, h1, fun t ht => ?_⟩
    obtain ⟨s, h2, h3, -⟩ := h t ht
    exact ⟨s, h2, by simp only [ht, dite_true, eb t ht]; exact h3⟩
  · refine (measure_mono ?_).trans (ville hA hB hma hmb c)
    rintro y ⟨t, ht, h⟩
    refine ⟨⟨t, Nat.lt_succ_of_le ht⟩, ?_⟩
    simp only [ht, dite_true] at h
    exact h
  · simp only [ht, dite_true]
    exact gibbs hA hB hma hmb ⟨t, Nat.lt_succ_of_le ht⟩

/-- A scalar random walk and a two-dimensional model of the same observations meet the hypotheses. -/
example : ∃ (θ : Fin 5 → Par 1 1) (θ' : Fin 5 → Par 2 1), IsLower (1 : Matrix (Fin 1) (Fin 1) ℝ) ∧
    IsLower (1 : Matrix (Fin 2) (Fin 2) ℝ) ∧ (∀ i, (1 : Matrix (Fin 1) (Fin 1) ℝ) i i ≠ 0) ∧
    (∀ i, (1 : Matrix (Fin 2) (Fin 2) ℝ) i i ≠ 0) ∧ (∀ t, (θ t).cholQ.det ≠ 0) ∧ (∀ t, (θ t).cholR.det ≠ 0) ∧
    (∀ t, (θ' t).cholQ.det ≠ 0) ∧ ∀ t, (θ' t).cholR.det ≠ 0 :=
  ⟨fun _ => ⟨1, 0, 1, 1, 0, 1⟩, fun _ => ⟨1, 0, 1, fun _ _ => 1, 0, 1⟩, fun i j h => Matrix.one_apply_ne h.ne,
    fun i j h => Matrix.one_apply_ne h.ne, by simp, by simp, by simp, by simp, by simp, by simp⟩

end

end Cuthbert.Generate
