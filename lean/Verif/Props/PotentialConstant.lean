import Verif.Props.TaylorFilter
import Verif.Props.Transform

/-!
# The log normalising constant of a Taylor filter whose observations are log potentials (C100)

`get_observation_func` may return a log potential `log G(x)` in place of a conditional density
(`cuthbert/gaussian/taylor/types.py:64-88`). Only its gradient and its Hessian are used: the filter
replaces it by the Gaussian density `N(m; x, L Lᵀ)` with the same ones, so whatever constant `log G` has beyond
that of a normalised density is lost from the log normalising constant. The filtering laws do not see it.
-/

namespace Cuthbert.Linearize

open MeasureTheory ProbabilityTheory Matrix Cuthbert Cuthbert.Spec Kalman
open scoped ENNReal Matrix

variable {nx ny : ℕ} {Inp K : Type}

noncomputable section

/-- The callbacks of a Taylor filter stand for the model with a Gaussian initial law, the transition kernels `ker`
and the log potentials `G`, differentiated by automatic differentiation. -/
structure PotentialModel (cb : TCallbacks nx ny Inp) (u₀ : Inp) (us : List Inp) (m0 : Fin nx → ℝ)
    (P0 : Matrix (Fin nx) (Fin nx) ℝ) (ker : Inp → (Fin nx → ℝ) → Measure (Fin nx → ℝ))
    (G : Inp → (Fin nx → ℝ) → ℝ) : Prop where
  init : ∃ (p : Potential nx) (x : Fin nx → ℝ), cb.getInit u₀ = (p, fun i => some (x i)) ∧ IsGaussian cb.rtol p m0 P0
  dynamics : ∀ u ∈ us, ∀ s : LState nx Inp, s.Finite → DynamicsIs cb.rtol (cb.getDynamics s u) (ker u)
  observation : ∀ u ∈ us, ∀ s : LState nx Inp, s.Finite → ∃ (p : Potential nx) (x : Fin nx → ℝ),
    cb.getObservation s u = .potential p (fun i => some (x i)) ∧ p.AD ∧ ∀ x, p.value x = G u x

/-- The Feynman-Kac step with transition kernel `k` and log potential `g`. -/
def logStep (k : (Fin nx → ℝ) → Measure (Fin nx → ℝ)) (g : (Fin nx → ℝ) → ℝ) : FKStep (Fin nx → ℝ) :=
  ⟨k, fun _ x => ENNReal.ofReal (Real.exp (g x))⟩

/-- Constants in the log potentials factor out of the Feynman-Kac measure. -/
theorem fkExp_shift (ker : Inp → (Fin nx → ℝ) → Measure (Fin nx → ℝ)) (g G : Inp → (Fin nx → ℝ) → ℝ) (κ : Inp → ℝ)
    (us : List Inp) (h : ∀ u ∈ us, ∀ x, G u x = g u x + κ u) (μ : Measure (Fin nx → ℝ))
    (f : (ℕ → Fin nx → ℝ) → ℝ≥0∞) :
    fkExp μ (us.map fun u => logStep (ker u) (G u)) f =
      ENNReal.ofReal (Real.exp (us.map κ).sum) * fkExp μ (us.map fun u => logStep (ker u) (g u)) f := by
  have key : ∀ (us : List Inp), (∀ u ∈ us, ∀ x, G u x = g u x + κ u) → ∀ (f : (ℕ → Fin nx → ℝ) → ℝ≥0∞) x,
      fkPathExp (us.map fun u => logStep (ker u) (G u)) f x =
        ENNReal.ofReal (Real.exp (us.map κ).sum) * fkPathExp (us.map fun u => logStep (ker u) (g u)) f x := by
    intro us
    induction us with
    | nil => intro _ f x; simp [fkPathExp]
    | cons u us ih =>
      intro h f x
      have hu := h u (by simp)
      have ih' := ih fun v hv => h v (by simp [hv])
      simp only [List.map_cons, fkPathExp, List.sum_cons]
      rw [← lintegral_const_mul' _ _ ENNReal.ofReal_ne_top]
      refine lintegral_congr fun x' => ?_
      rw [ih', logStep, logStep]
      dsimp only
      rw [hu, Real.exp_add, Real.exp_add, ENNReal.ofReal_mul (Real.exp_nonneg _),
        ENNReal.ofReal_mul (Real.exp_nonneg _)]
      ring
  rw [fkExp, fkExp, ← lintegral_const_mul' _ _ ENNReal.ofReal_ne_top]
  exact lintegral_congr fun x => key us h f x

/-- A potential of all the components of the state. -/
theorem observationIs_full {rtol : ℝ} {ign : Bool} (p : Potential nx) (x m : Fin nx → ℝ)
    (S : Matrix (Fin nx) (Fin nx) ℝ) (ad : p.AD) (hS : WellConditioned rtol S) (k : ℝ)
    (hv : ∀ x, p.value x = gaussLogDensity m S x + k) :
    ObservationIs (ny := ny) rtol ign (.potential p fun i => some (x i)) fun x =>
      ENNReal.ofReal (Real.exp (gaussLogDensity m S x)) := by
  let e : Fin nx ≃ Obs (maskY fun _ : Fin nx => true) :=
    ⟨fun i => ⟨i, rfl⟩, fun i => i.1, fun _ => rfl, fun _ => rfl⟩
  have hval : ∀ x : Fin nx → ℝ, gaussLogDensity m S x =
      gaussLogDensity (fun i : Obs (maskY fun _ : Fin nx => true) => m i.1)
        (S.submatrix Subtype.val Subtype.val) (fun i => x i.1) := fun x => by
    rw [← gaussLogDensity_reindex e]; rfl
  have := ObservationIs.potential (ny := ny) (rtol := rtol) (ign := ign) p x (fun _ => true) (fun i => m i.1)
    (S.submatrix Subtype.val Subtype.val) ad (Or.inr fun _ => rfl) (hS.obs _)
    ⟨k, fun x => by rw [hv]; exact congrArg (· + k) (hval x)⟩
  simpa only [← hval] using this

/-- A model with log potentials that are Gaussian up to constants, as seen by the filter. -/
theorem PotentialModel.represented {cb : TCallbacks nx ny Inp} {u₀ : Inp} {us : List Inp} {m0 : Fin nx → ℝ}
    {P0 : Matrix (Fin nx) (Fin nx) ℝ} {ker : Inp → (Fin nx → ℝ) → Measure (Fin nx → ℝ)}
    {G : Inp → (Fin nx → ℝ) → ℝ} (h : PotentialModel cb u₀ us m0 P0 ker G) (μ : Inp → Fin nx → ℝ)
    (S : Inp → Matrix (Fin nx) (Fin nx) ℝ) (κ : Inp → ℝ) (hS : ∀ u ∈ us, WellConditioned cb.rtol (S u))
    (hG : ∀ u ∈ us, ∀ x, G u x = gaussLogDensity (μ u) (S u) x + κ u) :
    Represented cb u₀ us m0 P0 fun u => logStep (ker u) (gaussLogDensity (μ u) (S u)) := by
  refine ⟨h.init, h.dynamics, fun u hu => ⟨_, rfl, fun s hs => ?_⟩⟩
  obtain ⟨p, x, hp, ad, hv⟩ := h.observation u hu s hs
  rw [hp]
  exact observationIs_full p x (μ u) (S u) ad (hS u hu) (κ u) fun x => by rw [hv, hG u hu]

/-- C100, what holds: with log potentials that are logarithms of Gaussian densities up to constants `κ u`, for every
number of steps the filtering law is exact, and the log normalising constant is that of the model less the constants.
Missing from the full claim: the constants (see `taylor_potential_evidence`). -/
theorem taylor_potential_constant_partial (qr : QR) (svd : SVD) (D : Dummies nx) (cb : TCallbacks nx ny Inp)
    (hr : 0 ≤ cb.rtol) (rng : Prng K) (u₀ : Inp) (us : List Inp) (key : Option K) (m0 : Fin nx → ℝ)
    (L0 : Matrix (Fin nx) (Fin nx) ℝ) (ker : Inp → (Fin nx → ℝ) → Measure (Fin nx → ℝ))
    (G : Inp → (Fin nx → ℝ) → ℝ) (h : PotentialModel cb u₀ us m0 (L0 * L0ᵀ) ker G) (μ : Inp → Fin nx → ℝ)
    (S : Inp → Matrix (Fin nx) (Fin nx) ℝ) (κ : Inp → ℝ) (hS : ∀ u ∈ us, WellConditioned cb.rtol (S u))
    (hG : ∀ u ∈ us, ∀ x, G u x = gaussLogDensity (μ u) (S u) x + κ u) :
    ∃ states, (filter rng (buildTaylorFilter qr svd D cb false) (u₀ :: us) false key).result = .ok states ∧
      states.length = us.length + 1 ∧
      ∀ t ≤ us.length, ∃ s m L l, states[t]? = some s ∧ s.mean = some m ∧ s.cholCov = some L ∧
        s.logNormalizingConstant = some l ∧
        ∀ φ : (Fin nx → ℝ) → ℝ≥0∞, Measurable φ →
          fkExp (gauss m0 L0) ((us.take t).map fun u => logStep (ker u) (G u)) (fun p => φ (p t)) =
            ENNReal.ofReal (Real.exp (l + ((us.take t).map κ).sum)) * ∫⁻ x, φ x ∂gauss m L := by
  obtain ⟨states, h1, h2, h3⟩ := taylor_non_associative_exact qr svd D cb hr rng u₀ us key m0 L0 _
    (h.represented μ S κ hS hG)
  refine ⟨states, h1, h2, fun t ht => ?_⟩
  obtain ⟨s, m, L, l, a1, a2, a3, a4, a5⟩ := h3 t ht
  refine ⟨s, m, L, l, a1, a2, a3, a4, fun φ hφ => ?_⟩
  rw [fkExp_shift ker (fun u => gaussLogDensity (μ u) (S u)) G κ _ fun u hu => hG u (List.mem_of_mem_take hu),
    a5 φ hφ, Real.exp_add, ENNReal.ofReal_mul (Real.exp_nonneg _)]
  ring

/-- The log normalising constant is the log evidence of the potentials exactly when the constants add up to zero. -/
theorem taylor_potential_evidence (qr : QR) (svd : SVD) (D : Dummies nx) (cb : TCallbacks nx ny Inp)
    (hr : 0 ≤ cb.rtol) (rng : Prng K) (u₀ : Inp) (us : List Inp) (key : Option K) (m0 : Fin nx → ℝ)
    (L0 : Matrix (Fin nx) (Fin nx) ℝ) (ker : Inp → (Fin nx → ℝ) → Measure (Fin nx → ℝ))
    (G : Inp → (Fin nx → ℝ) → ℝ) (h : PotentialModel cb u₀ us m0 (L0 * L0ᵀ) ker G) (μ : Inp → Fin nx → ℝ)
    (S : Inp → Matrix (Fin nx) (Fin nx) ℝ) (κ : Inp → ℝ) (hS : ∀ u ∈ us, WellConditioned cb.rtol (S u))
    (hG : ∀ u ∈ us, ∀ x, G u x = gaussLogDensity (μ u) (S u) x + κ u) :
    ∃ states, (filter rng (buildTaylorFilter qr svd D cb false) (u₀ :: us) false key).result = .ok states ∧
      ∀ t ≤ us.length, ∃ s l, states[t]? = some s ∧ s.logNormalizingConstant = some l ∧
        l = Real.log (fkExp (gauss m0 L0) ((us.take t).map fun u => logStep (ker u) (G u)) fun _ => 1).toReal -
          ((us.take t).map κ).sum := by
  obtain ⟨states, h1, -, h3⟩ := taylor_potential_constant_partial qr svd D cb hr rng u₀ us key m0 L0 ker G h μ S κ hS hG
  refine ⟨states, h1, fun t ht => ?_⟩
  obtain ⟨s, m, L, l, a1, -, -, a4, a5⟩ := h3 t ht
  refine ⟨s, l, a1, a4, ?_⟩
  rw [a5 (fun _ => 1) measurable_const, lintegral_one, measure_univ, mul_one,
    ENNReal.toReal_ofReal (Real.exp_nonneg _), Real.log_exp, add_sub_cancel_right]

/-- The Gaussian density of an observation `y = H x + d + noise`, as a function of `x`. -/
theorem gaussLogDensity_solve (H R : Matrix (Fin nx) (Fin nx) ℝ) (d y x : Fin nx → ℝ) (hH : H.det ≠ 0)
    (hR : R.det ≠ 0) :
    gaussLogDensity (H *ᵥ x + d) R y =
      gaussLogDensity (H⁻¹ *ᵥ (y - d)) (H⁻¹ * R * (H⁻¹)ᵀ) x + -Real.log |H.det| := by
  have hu : IsUnit H.det := isUnit_iff_ne_zero.mpr hH
  have hui : H⁻¹.det ≠ 0 := by
    rw [Matrix.det_nonsing_inv, Ring.inverse_eq_inv']; exact inv_ne_zero hH
  have hS : (H⁻¹ * R * (H⁻¹)ᵀ).det ≠ 0 := by
    rw [Matrix.det_mul, Matrix.det_mul, Matrix.det_transpose]
    exact mul_ne_zero (mul_ne_zero hui hR) hui
  have e1 : H * (H⁻¹ * R * (H⁻¹)ᵀ) * Hᵀ = R := by
    rw [Matrix.mul_assoc, Matrix.mul_assoc, ← Matrix.transpose_mul, Matrix.mul_nonsing_inv _ hu,
      Matrix.transpose_one, Matrix.mul_one, ← Matrix.mul_assoc, Matrix.mul_nonsing_inv _ hu, Matrix.one_mul]
  have e2 : H *ᵥ (H⁻¹ *ᵥ (y - d)) = y - d := by
    rw [Matrix.mulVec_mulVec, Matrix.mul_nonsing_inv _ hu, Matrix.one_mulVec]
  have := gaussLogDensity_linear H hH (H⁻¹ *ᵥ (y - d)) x (H⁻¹ * R * (H⁻¹)ᵀ) hS
  rw [e1, e2] at this
  rw [← sub_eq_add_neg, ← this]
  have e : y - (H *ᵥ x + d) = -(H *ᵥ x - (y - d)) := by abel
  rw [gaussLogDensity, gaussLogDensity, e, Matrix.mulVec_neg, dotProduct_neg, neg_dotProduct, neg_neg]

/-- C100, what fails: the same observations `y = H x + d + N(0, R)` with an invertible `H`, once given as conditional
densities and once as log potentials, with the same initial law and transitions. The filtering laws are the same at
every step, but the log normalising constants differ by `∑ log |det H|`. -/
theorem taylor_density_potential_disagree (qr : QR) (svd : SVD) (D : Dummies nx) (cb : TCallbacks nx nx Inp)
    (cb' : TCallbacks nx ny Inp) (hr : 0 ≤ cb.rtol) (hr' : 0 ≤ cb'.rtol) (rng : Prng K) (u₀ : Inp) (us : List Inp)
    (key key' : Option K) (m0 : Fin nx → ℝ) (L0 : Matrix (Fin nx) (Fin nx) ℝ)
    (ker : Inp → (Fin nx → ℝ) → Measure (Fin nx → ℝ)) (H R : Inp → Matrix (Fin nx) (Fin nx) ℝ)
    (d y : Inp → Fin nx → ℝ) (hH : ∀ u ∈ us, (H u).det ≠ 0) (hR : ∀ u ∈ us, (R u).det ≠ 0)
    (hS : ∀ u ∈ us, WellConditioned cb'.rtol ((H u)⁻¹ * R u * ((H u)⁻¹)ᵀ))
    (h : Represented cb u₀ us m0 (L0 * L0ᵀ) fun u =>
      logStep (ker u) fun x => gaussLogDensity (H u *ᵥ x + d u) (R u) (y u))
    (h' : PotentialModel cb' u₀ us m0 (L0 * L0ᵀ) ker fun u x => gaussLogDensity (H u *ᵥ x + d u) (R u) (y u)) :
    ∃ states states', (filter rng (buildTaylorFilter qr svd D cb false) (u₀ :: us) false key).result = .ok states ∧
      (filter rng (buildTaylorFilter qr svd D cb' false) (u₀ :: us) false key').result = .ok states' ∧
      ∀ t ≤ us.length, ∃ s s' m L L' l l', states[t]? = some s ∧ states'[t]? = some s' ∧
        s.mean = some m ∧ s'.mean = some m ∧ s.cholCov = some L ∧ s'.cholCov = some L' ∧ L * Lᵀ = L' * L'ᵀ ∧
        s.logNormalizingConstant = some l ∧ s'.logNormalizingConstant = some l' ∧
        l' = l + ((us.take t).map fun u => Real.log |(H u).det|).sum := by
  obtain ⟨states, h1, -, h3⟩ := taylor_non_associative_exact qr svd D cb hr rng u₀ us key m0 L0 _ h
  obtain ⟨states', h1', -, h3'⟩ := taylor_potential_constant_partial qr svd D cb' hr' rng u₀ us key' m0 L0 ker _ h'
    (fun u => (H u)⁻¹ *ᵥ (y u - d u)) (fun u => (H u)⁻¹ * R u * ((H u)⁻¹)ᵀ) (fun u => -Real.log |(H u).det|) hS
    fun u hu x => gaussLogDensity_solve (H u) (R u) (d u) (y u) x (hH u hu) (hR u hu)
  refine ⟨states, states', h1, h1', fun t ht => ?_⟩
  obtain ⟨s, m, L, l, a1, a2, a3, a4, a5⟩ := h3 t ht
  obtain ⟨s', m', L', l', b1, b2, b3, b4, b5⟩ := h3' t ht
  obtain ⟨e1, e2, e3⟩ := weighted_gauss_injective fun φ hφ => (a5 φ hφ).symm.trans (b5 φ hφ)
  subst e2
  refine ⟨s, s', m, L, L', l, l', a1, b1, a2, b2, a3, b3, e3, a4, b4, ?_⟩
  have e : ((us.take t).map fun u => -Real.log |(H u).det|).sum =
      -((us.take t).map fun u => Real.log |(H u).det|).sum := by
    induction us.take t with
    | nil => simp
    | cons a l ih => simp only [List.map_cons, List.sum_cons, ih]; ring
  rw [e] at e1
  linarith

/-- A constant added to any twice differentiable log potential, Gaussian or not, changes nothing in what the filter
takes from it. -/
theorem processPotential_shift (qr : QR) (svd : SVD) (rtol : ℝ) (ign : Bool) (p p' : Potential nx) (a : ℝ)
    (ad : p.AD) (ad' : p'.AD) (hp : ContDiff ℝ 2 p.value) (h : ∀ x, p'.value x = p.value x + a) (x : Fin nx → ℝ) :
    processPotential qr svd rtol ign p' (fun i => some (x i)) =
      processPotential qr svd rtol ign p (fun i => some (x i)) := by
  have hv : p'.value = fun x => p.value x + a := funext h
  have hp' : ContDiff ℝ 2 p'.value := by rw [hv]; exact hp.add contDiff_const
  have hd : ∀ z v, lineDeriv ℝ p'.value z v = lineDeriv ℝ p.value z v := fun z v => by
    rw [hv, lineDeriv, lineDeriv]; exact deriv_add_const _
  have hg : p'.grad (fun i => some (x i)) = p.grad (fun i => some (x i)) := by
    funext i; rw [ad'.grad x hp', ad.grad x hp, hd]
  have hh : p'.hess (fun i => some (x i)) = p.hess (fun i => some (x i)) := by
    funext i j
    rw [ad'.hess x hp', ad.hess x hp]
    simp only [hd]
  have he : linearizeTaylor qr svd rtol ign p' (fun i => some (x i)) =
      linearizeTaylor qr svd rtol ign p (fun i => some (x i)) := by
    rw [linearizeTaylor, linearizeTaylor, hg, hh]
  rw [processPotential, processPotential, he]

/-- Non-vacuity: observations `2 x₁, 3 x₂` with unit noise, given in both ways; the log normalising constants differ
by `log 6` at every step. -/
theorem exists_density_potential_models : ∃ (cb cb' : TCallbacks 2 2 ℕ), cb.rtol = 1 / 10 ∧ cb'.rtol = 1 / 10 ∧
    ∀ (us : List ℕ), WellConditioned (1 / 10)
      ((!![2, 0; 0, 3] : Matrix (Fin 2) (Fin 2) ℝ)⁻¹ * 1 * ((!![2, 0; 0, 3] : Matrix (Fin 2) (Fin 2) ℝ)⁻¹)ᵀ) ∧
    Represented cb 0 us 0 (1 * 1ᵀ) (fun _ => logStep (fun x => gauss x (1 : Matrix (Fin 2) (Fin 2) ℝ))
      fun x => gaussLogDensity (!![2, 0; 0, 3] *ᵥ x + 0) (1 : Matrix (Fin 2) (Fin 2) ℝ) ![5, 7]) ∧
    PotentialModel cb' 0 us 0 (1 * 1ᵀ) (fun _ x => gauss x (1 : Matrix (Fin 2) (Fin 2) ℝ))
      (fun _ x => gaussLogDensity (!![2, 0; 0, 3] *ᵥ x + 0) (1 : Matrix (Fin 2) (Fin 2) ℝ) ![5, 7]) := by
  have hw : WellConditioned (1 / 10) (1 : Matrix (Fin 2) (Fin 2) ℝ) :=
    ⟨Matrix.isSymm_one, 1, 1, one_pos, by norm_num, fun x => by simp⟩
  have hw1 : WellConditioned (1 / 10) (1 * (1 : Matrix (Fin 2) (Fin 2) ℝ)ᵀ) := by simpa using hw
  let lg : Callbacks 2 2 ℕ := ⟨fun _ => (0, 1), fun _ => (1, 0, 1),
    fun _ => (!![2, 0; 0, 3], 0, 1, fun i => some ((![5, 7] : Fin 2 → ℝ) i))⟩
  obtain ⟨cb, hcb, -, -, hrep⟩ := exists_represented lg (1 / 10) (fun _ => hw1) (fun _ => hw1) (fun _ => hw1)
    fun _ _ _ => 0
  obtain ⟨pp, hpp, hppAD⟩ := exists_potential (n := 2) fun x =>
    gaussLogDensity (!![2, 0; 0, 3] *ᵥ x + 0) (1 : Matrix (Fin 2) (Fin 2) ℝ) ![5, 7]
  have hfk : (fun u => (stepOf lg u).toFK) = fun _ => logStep (fun x => gauss x (1 : Matrix (Fin 2) (Fin 2) ℝ))
      fun x => gaussLogDensity (!![2, 0; 0, 3] *ᵥ x + 0) (1 : Matrix (Fin 2) (Fin 2) ℝ) ![5, 7] := by
    funext u
    rw [Step.toFK, logStep]
    congr 1
    · funext x
      change gauss ((1 : Matrix (Fin 2) (Fin 2) ℝ) *ᵥ x + 0) 1 = _
      rw [Matrix.one_mulVec, add_zero]
    · funext _ x
      have h1 := gaussLogDensity_reindex (allObs (![5, 7] : Fin 2 → ℝ))
        (obsH (stepOf lg u).y (stepOf lg u).H *ᵥ x + obsV (stepOf lg u).y (stepOf lg u).d) (stepOf lg u).R
        (obsY (stepOf lg u).y)
      have h2 : (stepOf lg u).R.submatrix (allObs (![5, 7] : Fin 2 → ℝ)) (allObs (![5, 7] : Fin 2 → ℝ)) =
          (1 : Matrix (Fin 2) (Fin 2) ℝ) := by
        rw [Step.R, obsL_gram]
        change (1 * (1 : Matrix (Fin 2) (Fin 2) ℝ)ᵀ) = 1
        rw [Matrix.transpose_one, Matrix.mul_one]
      have h3 := h1.symm.trans (congrArg (fun S => gaussLogDensity _ S _) h2)
      exact congrArg (fun r => ENNReal.ofReal (Real.exp r)) h3
  refine ⟨cb, { cb with getObservation := fun _ _ => .potential pp fun _ => some 0 }, hcb, hcb, fun us =>
    ⟨?_, ?_, ?_⟩⟩
  · have hinv : (!![2, 0; 0, 3] : Matrix (Fin 2) (Fin 2) ℝ)⁻¹ = !![1 / 2, 0; 0, 1 / 3] := by
      refine Matrix.inv_eq_right_inv ?_
      ext i j; fin_cases i <;> fin_cases j <;> simp [Matrix.mul_apply, Fin.sum_univ_two]
    have hprod : (!![1 / 2, 0; 0, 1 / 3] : Matrix (Fin 2) (Fin 2) ℝ) * 1 * (!![1 / 2, 0; 0, 1 / 3])ᵀ =
        !![1 / 4, 0; 0, 1 / 9] := by
      rw [Matrix.mul_one]
      ext i j; fin_cases i <;> fin_cases j <;> norm_num [Matrix.mul_apply, Fin.sum_univ_two]
    rw [hinv, hprod]
    refine ⟨?_, 1 / 9, 1 / 4, by norm_num, by norm_num, fun x => ?_⟩
    · ext i j; fin_cases i <;> fin_cases j <;> rfl
    · simp [dotProduct, mulVec, Fin.sum_univ_two]
      constructor <;> nlinarith [sq_nonneg (x 0), sq_nonneg (x 1)]
  · rw [← hfk]; exact (hrep 0 us).1
  · have hr := (hrep 0 us).1
    rw [hfk] at hr
    exact ⟨hr.init, hr.dynamics, fun u _ s _ => ⟨pp, fun _ => 0, rfl, hppAD, fun x => by rw [hpp]⟩⟩

end

end Cuthbert.Linearize
