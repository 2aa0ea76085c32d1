import Verif.Props.GaussNewton

/-!
# For additive Gaussian noise the Taylor methods are the moments methods (C102)
-/

namespace Cuthbert.Linearize
open Matrix Cuthbert Cuthbert.Spec Kalman

noncomputable section

set_option linter.unusedSectionVars false

variable {nx ny : ℕ} {Inp K : Type*}

/-! ## Specification -/

/-- The conditional log density is, up to a constant, that of `N(f(x), Q)`. -/
structure IsAdditiveTransition (rtol : ℝ) (p : CondDensity nx nx) (f : (Fin nx → ℝ) → Fin nx → ℝ)
    (Q : Matrix (Fin nx) (Fin nx) ℝ) : Prop where
  ad : p.AD
  smooth : ContDiff ℝ 2 f
  cond : WellConditioned rtol Q
  value : ∃ k, ∀ x z, p.value x (fun i => some (z i)) = gaussLogDensity (f x) Q z + k

/-- The log density of the observed components of `y` is, up to a constant, that of `N(h(x), R)`. -/
structure IsAdditiveObservation (rtol : ℝ) (p : CondDensity nx ny) (y : Fin ny → Option ℝ)
    (h : (Fin nx → ℝ) → Fin ny → ℝ) (R : Matrix (Fin ny) (Fin ny) ℝ) : Prop where
  ad : p.AD
  smooth : ContDiff ℝ 2 h
  cond : WellConditioned rtol (R.submatrix Subtype.val Subtype.val : Matrix (Obs y) (Obs y) ℝ)
  value : ∃ k, ∀ (x : Fin nx → ℝ) (z : Obs y → ℝ), p.value x (fillObs y z) =
    gaussLogDensity (obsV y (h x)) (R.submatrix Subtype.val Subtype.val) z + k

/-- The callbacks of the two methods describe one nonlinear model with additive Gaussian noise: as log densities for
the Taylor method, as conditional means and factors of covariances for the moments method. Both linearise at the same
points, which may depend on the mean of the state. -/
structure SameModel (cb : TCallbacks nx ny Inp) (mb : MCallbacks nx ny Inp) (u₀ : Inp) (us : List Inp) : Prop where
  init : ∃ (p : Potential nx) (x : Fin nx → ℝ), cb.getInit u₀ = (p, fun i => some (x i)) ∧
    IsGaussian cb.rtol p (mb.getInit u₀).1 ((mb.getInit u₀).2 * ((mb.getInit u₀).2)ᵀ)
  dynamics : ∀ u ∈ us, ∀ s s' : LState nx Inp, s.mean = s'.mean → s.mean ≠ none →
    ∃ (p : CondDensity nx nx) (f : (Fin nx → ℝ) → Fin nx → ℝ) (cholQ : Matrix (Fin nx) (Fin nx) ℝ)
      (xPrev xCurr : Fin nx → ℝ),
      cb.getDynamics s u = (p, fun i => some (xPrev i), fun i => some (xCurr i)) ∧
      mb.getDynamics s' u = (fun x => (f x, cholQ), xPrev) ∧ IsAdditiveTransition cb.rtol p f (cholQ * cholQᵀ)
  observation : ∀ u ∈ us, ∀ s s' : LState nx Inp, s.mean = s'.mean → s.mean ≠ none →
    ∃ (p : CondDensity nx ny) (h : (Fin nx → ℝ) → Fin ny → ℝ) (cholR : Matrix (Fin ny) (Fin ny) ℝ)
      (x : Fin nx → ℝ) (y : Fin ny → Option ℝ),
      cb.getObservation s u = .density p (fun i => some (x i)) y ∧
      mb.getObservation s' u = (fun x => (h x, cholR), x, y) ∧
      IsAdditiveObservation cb.rtol p y h (cholR * cholRᵀ) ∧ (cb.ignoreNanDims = true ∨ ∀ i, y i ≠ none)

/-! ## One linearisation -/

/-- For `log N(h(x), R)` the method of log densities returns the tangent of `h` at `x` and a factor of `R`, wherever
in `y` it linearises. -/
theorem linearize_log_density_additive (qr : QR) (svd : SVD) (rtol : ℝ) (hr : 0 ≤ rtol) (ign : Bool)
    (p : CondDensity nx ny) (h : (Fin nx → ℝ) → Fin ny → ℝ) (R : Matrix (Fin ny) (Fin ny) ℝ) (x : Fin nx → ℝ)
    (y : Fin ny → Option ℝ) (hign : ign = true ∨ ∀ i, y i ≠ none) (hp : IsAdditiveObservation rtol p y h R) :
    ∃ L : Matrix (Obs y) (Obs y) ℝ,
      (∀ (i : Obs y) j, (linearizeLogDensity qr svd rtol ign p (fun k => some (x k)) y).1 i.1 j =
        some (jacfwd h x i.1 j)) ∧
      (∀ i : Obs y, (linearizeLogDensity qr svd rtol ign p (fun k => some (x k)) y).2.1 i.1 =
        some ((h x - jacfwd h x *ᵥ x) i.1)) ∧
      (∀ i j : Obs y, (linearizeLogDensity qr svd rtol ign p (fun k => some (x k)) y).2.2 i.1 j.1 =
        some (L i j)) ∧
      (∀ i j : Obs y, i < j → L i j = 0) ∧ L * Lᵀ = R.submatrix Subtype.val Subtype.val ∧
      (∀ i, y i = none → (linearizeLogDensity qr svd rtol ign p (fun k => some (x k)) y).2.2 i i = none) ∧
      ∀ i j, i ≠ j → y i = none ∨ y j = none →
        (linearizeLogDensity qr svd rtol ign p (fun k => some (x k)) y).2.2 i j = some 0 := by
  obtain ⟨hAD, hh, hR, c, hp⟩ := hp
  obtain ⟨S, hS⟩ : ∃ S : Matrix (Obs y) (Obs y) ℝ, S = R.submatrix Subtype.val Subtype.val := ⟨_, rfl⟩
  rw [← hS] at hR ⊢
  have hdet := hR.det_ne_zero
  obtain ⟨c', hc'⟩ : ∃ c', ∀ μ z : Obs y → ℝ, gaussLogDensity μ S z =
      quadForm (0 : Matrix (Obs y) (Fin 0) ℝ) μ S⁻¹ c' 0 z :=
    ⟨- Fintype.card (Obs y) / 2 * Real.log (2 * Real.pi) - 1 / 2 * Real.log S.det, fun μ z => by
      rw [gaussLogDensity, quadForm, Matrix.zero_mulVec, zero_add]; ring⟩
  have hon : ∀ x, p.on y x = quadForm (0 : Matrix (Obs y) (Fin 0) ℝ) (obsV y (h x)) S⁻¹ (c' + c) 0 := by
    intro x; funext z
    rw [CondDensity.on, hp, ← hS, hc', quadForm, quadForm]; ring
  have hcd : ContDiff ℝ 2 fun q : (Fin nx → ℝ) × (Obs y → ℝ) => p.on y q.1 q.2 := by
    have h1 : ∀ i, ContDiff ℝ 2 fun q : (Fin nx → ℝ) × (Obs y → ℝ) => h q.1 i := fun i =>
      (contDiff_pi.mp hh i).comp contDiff_fst
    simp only [hon, quadForm, Matrix.zero_mulVec, zero_add, dotProduct, mulVec, Pi.sub_apply, obsV]
    fun_prop
  have hsi := (hR.inv).1
  obtain ⟨L, l1, l2, l3, l4, l5, l6, l7⟩ := linearizeLogDensity_eq qr svd rtol hr ign p x y hign
    (fun i => -(S⁻¹ *ᵥ (obsY y - obsV y (h x))) i) (S⁻¹ * obsH y (jacfwd h x)) S⁻¹ (hR.inv)
    (fun i => by rw [hAD.grad x y hcd, hon, quadForm_grad hsi, Matrix.zero_mulVec, zero_add])
    (fun i j => by
      rw [hAD.jac x y hcd]
      simp only [hon, quadForm_grad hsi, Matrix.zero_mulVec, zero_add]
      congr 1
      refine HasLineDerivAt.lineDeriv ?_
      have h0 := comp_line_hasDerivAt h x (Pi.single j 1) (hh.differentiable (by norm_num) x)
      have h1 : HasDerivAt (fun s : ℝ => ∑ k : Obs y, S⁻¹ i k * (obsY y k - h (x + s • Pi.single j 1) k.1))
          (∑ k : Obs y, S⁻¹ i k * -(jacfwd h x *ᵥ Pi.single j 1) k.1) 0 :=
        HasDerivAt.fun_sum fun k _ => ((hasDerivAt_pi.mp h0 k.1).const_sub _).const_mul _
      have h2 : -∑ k : Obs y, S⁻¹ i k * -(jacfwd h x *ᵥ Pi.single j 1) k.1 = (S⁻¹ * obsH y (jacfwd h x)) i j := by
        rw [Matrix.mul_apply, ← Finset.sum_neg_distrib]
        refine Finset.sum_congr rfl fun k _ => ?_
        rw [mul_neg, neg_neg, mulVec_single_one]
        rfl
      rw [← h2]
      exact h1.neg)
    (fun i j => by rw [hAD.hess x y hcd]; simp only [hon]; rw [quadForm_hess hsi])
    (hAD.missing x y hcd)
  have hLL : L * Lᵀ = S := by
    have := Matrix.inv_eq_right_inv l2
    rw [← this, Matrix.nonsing_inv_nonsing_inv _ hdet.isUnit]
  have hmat : L * Lᵀ * (S⁻¹ * obsH y (jacfwd h x)) = obsH y (jacfwd h x) := by
    rw [hLL, ← Matrix.mul_assoc, Matrix.mul_nonsing_inv _ hdet.isUnit, Matrix.one_mul]
  refine ⟨L, fun i j => ?_, fun i => ?_, l5, l1, hLL, l6, l7⟩
  · rw [l3, hmat]; rfl
  · rw [l4, hmat]
    have hneg : (fun i => -(S⁻¹ *ᵥ (obsY y - obsV y (h x))) i) = -(S⁻¹ *ᵥ (obsY y - obsV y (h x))) := rfl
    have hob : (obsH y (jacfwd h x) *ᵥ x) i = (jacfwd h x *ᵥ x) i.1 := rfl
    rw [hneg, hLL, Matrix.mulVec_neg, Matrix.mulVec_mulVec, Matrix.mul_nonsing_inv _ hdet.isUnit,
      Matrix.one_mulVec]
    congr 1
    simp only [Pi.add_apply, Pi.sub_apply, Pi.neg_apply, obsV, hob]
    ring

theorem IsAdditiveTransition.linearize {rtol : ℝ} {p : CondDensity nx nx} {f : (Fin nx → ℝ) → Fin nx → ℝ}
    {Q : Matrix (Fin nx) (Fin nx) ℝ} (h : IsAdditiveTransition rtol p f Q) (qr : QR)
    (svd : SVD) (hr : 0 ≤ rtol) (ign : Bool) (x y : Fin nx → ℝ) :
    ∃ L : Matrix (Fin nx) (Fin nx) ℝ, IsLower L ∧ L * Lᵀ = Q ∧
      linearizeLogDensity qr svd rtol ign p (fun i => some (x i)) (fun i => some (y i)) =
        (fun i j => some (jacfwd f x i j), fun i => some ((f x - jacfwd f x *ᵥ x) i), fun i j => some (L i j)) := by
  obtain ⟨k, hk⟩ := h.value
  obtain ⟨L, h1, h2, h3, h4, h5, -, -⟩ := linearize_log_density_additive qr svd rtol hr ign p f Q x
    (fun i => some (y i)) (Or.inr fun i => by simp) ⟨h.ad, h.smooth, h.cond.obs _, k, fun x z => by
      have : fillObs (fun i => some (y i)) z = fun i => some ((z ∘ obsAll y) i) := by
        funext i; simp [fillObs, obsAll]
      rw [this, hk, ← gaussLogDensity_reindex (obsAll y)]; rfl⟩
  refine ⟨L.submatrix (obsAll y) (obsAll y), fun i j hij => h4 _ _ hij, ?_, ?_⟩
  · rw [Matrix.transpose_submatrix, Matrix.submatrix_mul_equiv, h5]; rfl
  · refine Prod.ext ?_ (Prod.ext ?_ ?_)
    · funext i j; exact h1 (obsAll y i) j
    · funext i; exact h2 (obsAll y i)
    · funext i j; exact h3 (obsAll y i) (obsAll y j)

/-- The parameters of the observation. -/
theorem IsAdditiveObservation.process {rtol : ℝ} {p : CondDensity nx ny} {y : Fin ny → Option ℝ}
    {h : (Fin nx → ℝ) → Fin ny → ℝ} {R : Matrix (Fin ny) (Fin ny) ℝ} (hp : IsAdditiveObservation rtol p y h R)
    (qr : QR) (svd : SVD) (hr : 0 ≤ rtol) (ign : Bool) (x : Fin nx → ℝ) (hign : ign = true ∨ ∀ i, y i ≠ none) :
    ∃ H d C, processDensity qr svd rtol ign p (fun i => some (x i)) y = some ⟨H, d, C, y⟩ ∧
      obsH y H = obsH y (jacfwd h x) ∧ obsV y d = obsV y (h x - jacfwd h x *ᵥ x) ∧
      obsL y C * (obsL y C)ᵀ = R.submatrix Subtype.val Subtype.val := by
  obtain ⟨L, h1, h2, h3, -, h5, -, h7⟩ := linearize_log_density_additive qr svd rtol hr ign p h R x y hign hp
  obtain ⟨ho, a1, a2, a3⟩ := finiteObs_eq _ _ _ y _ _ L h1 h2 h3 h7
  exact ⟨_, _, _, ho, a1, a2, a3.trans h5⟩

theorem IsAdditiveTransition.tDynamics {cb : TCallbacks nx ny Inp} {s : LState nx Inp} {u : Inp}
    {p : CondDensity nx nx} {f : (Fin nx → ℝ) → Fin nx → ℝ} {Q : Matrix (Fin nx) (Fin nx) ℝ}
    (h : IsAdditiveTransition cb.rtol p f Q) (qr : QR) (svd : SVD) (hr : 0 ≤ cb.rtol) (x y : Fin nx → ℝ)
    (he : cb.getDynamics s u = (p, fun i => some (x i), fun i => some (y i))) :
    ∃ L, L * Lᵀ = Q ∧ tDynamics qr svd cb s u = some (jacfwd f x, f x - jacfwd f x *ᵥ x, L) := by
  obtain ⟨L, -, hL, hlin⟩ := h.linearize qr svd hr cb.ignoreNanDims x y
  unfold Linearize.tDynamics
  rw [he]
  simp only []
  rw [hlin]
  by_cases hs : skipPredict (fun i => some (y i)) fun i => some (x i)
  · have : IsEmpty (Fin nx) := ⟨fun i => by have := hs.1 i; cases this⟩
    refine ⟨0, Subsingleton.elim _ _, ?_⟩
    rw [if_pos hs, Subsingleton.elim (jacfwd f x) 1, Subsingleton.elim (f x - 1 *ᵥ x) 0]
  · refine ⟨L, hL, ?_⟩
    rw [if_neg hs, finite_some _ (jacfwd f x) fun _ _ => rfl, finiteVec_some _ (f x - jacfwd f x *ᵥ x) fun _ => rfl,
      finite_some _ L fun _ _ => rfl]
    rfl

/-! ## Runs -/

/-- A step of the recursion depends only on what is observed and on the covariances. -/
theorem kfStep_congr (k : KF nx) (F : Matrix (Fin nx) (Fin nx) ℝ) (c : Fin nx → ℝ) (Q Q' : Matrix (Fin nx) (Fin nx) ℝ)
    (H H' : Matrix (Fin ny) (Fin nx) ℝ) (d d' : Fin ny → ℝ) (R R' : Matrix (Fin ny) (Fin ny) ℝ)
    (y : Fin ny → Option ℝ) (hQ : Q * Qᵀ = Q' * Q'ᵀ) (hH : obsH y H = obsH y H') (hd : obsV y d = obsV y d')
    (hR : obsL y R * (obsL y R)ᵀ = obsL y R' * (obsL y R')ᵀ) :
    kfStep k (⟨F, c, Q, H, d, R, y⟩ : Step nx ny) = kfStep k ⟨F, c, Q', H', d', R', y⟩ := by
  simp only [kfStep, Step.R, hQ, hH, hd, hR]

/-- One step of the non-associative filters. -/
theorem taylor_moments_step (qr qr' : QR) (svd : SVD) (D : Dummies nx) (cb : TCallbacks nx ny Inp)
    (mb : MCallbacks nx ny Inp) (hr : 0 ≤ cb.rtol) (u₀ : Inp) (us : List Inp) (h : SameModel cb mb u₀ us) (u : Inp)
    (hu : u ∈ us) (s s' : LState nx Inp) (k : KF nx) (hs : Holds s k) (hs' : Holds s' k) :
    ∃ k', Holds (tCombineNonAssoc qr svd D cb s (prepareNonAssoc D u)) k' ∧
      Holds (mCombineNonAssoc qr' D mb s' (prepareNonAssoc D u)) k' := by
  obtain ⟨p, f, cholQ, xp, xc, h1, h2, h3⟩ := h.dynamics u hu s s' (hs.mean.trans hs'.mean.symm)
    (by rw [hs.mean]; simp)
  obtain ⟨L, hL, hdyn⟩ := h3.tDynamics qr svd hr xp xc h1
  have hm : mDynamics mb s' u = (jacfwd f xp, f xp - jacfwd f xp *ᵥ xp, cholQ) := by
    rw [mDynamics, h2]; rfl
  have hP : IsGram k.P := by
    obtain ⟨L, -, hL⟩ := hs.cov
    rw [← hL]; exact isGram_of _
  obtain ⟨pr, hpr⟩ : ∃ pr, pr = predictState qr D s u (some (jacfwd f xp, f xp - jacfwd f xp *ᵥ xp, L)) := ⟨_, rfl⟩
  obtain ⟨pr', hpr'⟩ : ∃ pr, pr = predictState qr' D s' u (some (jacfwd f xp, f xp - jacfwd f xp *ᵥ xp, cholQ)) :=
    ⟨_, rfl⟩
  have hmean : ∀ (q : QR) (s : LState nx Inp) (Q : Matrix (Fin nx) (Fin nx) ℝ), Holds s k →
      (predictState q D s u (some (jacfwd f xp, f xp - jacfwd f xp *ᵥ xp, Q))).mean =
        some (jacfwd f xp *ᵥ k.m + (f xp - jacfwd f xp *ᵥ xp)) := by
    intro q s Q hs
    obtain ⟨hm, ⟨L, hL, -⟩, -⟩ := hs
    simp only [predictState, hm, hL]
    rfl
  have e1 := hmean qr s L hs
  have e2 := hmean qr' s' cholQ hs'
  rw [← hpr] at e1
  rw [← hpr'] at e2
  obtain ⟨po, g, cholR, x, y, o1, o2, o3, o4⟩ := h.observation u hu pr pr' (e1.trans e2.symm) (by rw [e1]; simp)
  obtain ⟨H, d, C, c1, c2, c3, c4⟩ := o3.process qr svd hr cb.ignoreNanDims x o4
  have hmo : mObservation mb pr' u = ⟨jacfwd g x, g x - jacfwd g x *ᵥ x, cholR, y⟩ := by
    rw [mObservation, o2]; rfl
  obtain ⟨st, hst⟩ : ∃ st : Step nx ny, st = ⟨jacfwd f xp, f xp - jacfwd f xp *ᵥ xp, L, H, d, C, y⟩ := ⟨_, rfl⟩
  obtain ⟨st', hst'⟩ : ∃ st : Step nx ny, st = ⟨jacfwd f xp, f xp - jacfwd f xp *ᵥ xp, cholQ, jacfwd g x,
    g x - jacfwd g x *ᵥ x, cholR, y⟩ := ⟨_, rfl⟩
  have hR : st.R.det ≠ 0 := by
    rw [hst, Step.R, c4]
    exact o3.cond.det_ne_zero
  have hR' : st'.R.det ≠ 0 := by
    rw [hst']
    exact o3.cond.det_ne_zero
  have a1 := (step_holds qr D s u k hs st (innov_det_of_R _ hR (pred_gram hP _))).1
  have a2 := (step_holds qr' D s' u k hs' st' (innov_det_of_R _ hR' (pred_gram hP _))).1
  refine ⟨kfStep k st, ?_, ?_⟩
  · have : tCombineNonAssoc qr svd D cb s (prepareNonAssoc D u) = updateState qr D s pr u (some ⟨H, d, C, y⟩) := by
      unfold tCombineNonAssoc
      have hmi : (prepareNonAssoc D u : LState nx Inp).modelInputs = u := rfl
      simp only [hmi, hdyn, ← hpr, o1, c1]
    rw [this, hpr]
    rw [hst] at a1 ⊢
    exact a1
  · have : mCombineNonAssoc qr' D mb s' (prepareNonAssoc D u) = updateState qr' D s' pr' u
        (some ⟨jacfwd g x, g x - jacfwd g x *ᵥ x, cholR, y⟩) := by
      unfold mCombineNonAssoc
      have hmi : (prepareNonAssoc D u : LState nx Inp).modelInputs = u := rfl
      simp only [hmi, hm, ← hpr', hmo]
    have hk : kfStep k st = kfStep k st' := by
      rw [hst, hst']
      exact kfStep_congr k _ _ _ _ _ _ _ _ _ _ _ hL c2 c3 c4
    rw [this, hpr', hk]
    rw [hst'] at a2 ⊢
    exact a2

theorem kfAt_congr {n : ℕ} (lg lg' : Callbacks nx n Inp) (u₀ : Inp) (us : List Inp)
    (h0 : (lg.getInit u₀).1 = (lg'.getInit u₀).1)
    (h1 : (lg.getInit u₀).2 * ((lg.getInit u₀).2)ᵀ = (lg'.getInit u₀).2 * ((lg'.getInit u₀).2)ᵀ)
    (hs : ∀ u ∈ us, ∀ k, kfStep k (stepOf lg u) = kfStep k (stepOf lg' u)) (t : ℕ) (ht : t ≤ us.length) :
    kfAt lg u₀ us t = kfAt lg' u₀ us t := by
  induction t with
  | zero =>
    rw [kfAt, kfAt, List.take_zero, List.map_nil, List.foldl_nil, List.map_nil, List.foldl_nil, h0, h1]
  | succ t ih =>
    have hut : us[t]? = some us[t] := List.getElem?_eq_getElem ht
    rw [kfAt_succ lg u₀ us t _ hut, kfAt_succ lg' u₀ us t _ hut, ih (by omega), hs _ (List.getElem_mem ht)]

/-- What the two associative filters compute. -/
theorem taylor_moments_assoc (qr qr' : QR) (svd : SVD) (D : Dummies nx) (cb : TCallbacks nx ny Inp)
    (mb : MCallbacks nx ny Inp) (hr : 0 ≤ cb.rtol) (u₀ : Inp) (us : List Inp) (h : SameModel cb mb u₀ us)
    (rng : Prng K) (parallel parallel' : Bool) (key key' : Option K) :
    ∃ states states',
      (filter rng (buildTaylorFilter qr svd D cb true) (u₀ :: us) parallel key).result = .ok states ∧
      (filter rng (buildMomentsFilter qr' D mb true) (u₀ :: us) parallel' key').result = .ok states' ∧
      states.length = us.length + 1 ∧ states'.length = us.length + 1 ∧
      ∀ t ≤ us.length, ∃ s s' m L L' l, states[t]? = some s ∧ states'[t]? = some s' ∧
        s.mean = some m ∧ s'.mean = some m ∧ s.cholCov = some L ∧ s'.cholCov = some L' ∧ L * Lᵀ = L' * L'ᵀ ∧
        (∀ a, s.logNormalizingConstant = some a → a = l) ∧
        (IsLower (mb.getInit u₀).2 → ∀ a, s'.logNormalizingConstant = some a → a = l) := by
  obtain ⟨p, x, hp, hgau⟩ := h.init
  obtain ⟨L0, hL0, hlow, hLP⟩ := hgau.linearize qr svd hr cb u₀ x rfl hp
  obtain ⟨lg', hlg'⟩ : ∃ lg', lg' = linearisedAt mb (dummyState D) := ⟨_, rfl⟩
  have hstep : ∀ u, ∃ st : Step nx ny, u ∈ us → (tPrepareAssoc qr svd D cb u).elem =
      filterParams qr st.F st.c st.cholQ st.H st.d st.cholR st.y ∧
      st.R.det ≠ 0 ∧ (stepOf lg' u).R.det ≠ 0 ∧ ∀ k, kfStep k st = kfStep k (stepOf lg' u) := by
    intro u
    by_cases hu : u ∈ us
    · have hd : (dummyState D u : LState nx Inp).mean ≠ none := (dummyState_finite D u).1
      obtain ⟨p, f, cholQ, xp, xc, h1, h2, h3⟩ := h.dynamics u hu (dummyState D u) (dummyState D u) rfl hd
      obtain ⟨L, hL, hdyn⟩ := h3.tDynamics qr svd hr xp xc h1
      obtain ⟨po, g, cholR, x, y, o1, o2, o3, o4⟩ := h.observation u hu (dummyState D u) (dummyState D u) rfl hd
      obtain ⟨H, d, C, c1, c2, c3, c4⟩ := o3.process qr svd hr cb.ignoreNanDims x o4
      have hso : stepOf lg' u = ⟨jacfwd f xp, f xp - jacfwd f xp *ᵥ xp, cholQ, jacfwd g x,
          g x - jacfwd g x *ᵥ x, cholR, y⟩ := by
        rw [hlg']
        simp only [stepOf, linearisedAt, h2, o2]
        rfl
      refine ⟨⟨jacfwd f xp, f xp - jacfwd f xp *ᵥ xp, L, H, d, C, y⟩, fun _ => ⟨?_, ?_, ?_, fun k => ?_⟩⟩
      · unfold tPrepareAssoc
        simp only [hdyn, o1, c1, Option.bind_some]
      · rw [Step.R, c4]
        exact o3.cond.det_ne_zero
      · rw [hso]
        exact o3.cond.det_ne_zero
      · rw [hso]
        exact kfStep_congr k _ _ _ _ _ _ _ _ _ _ _ hL c2 c3 c4
    · exact ⟨⟨0, 0, 0, 0, 0, 0, fun _ => none⟩, fun h => absurd h hu⟩
  choose st hst using hstep
  obtain ⟨lin, hlin⟩ : ∃ lin : Callbacks nx ny Inp, lin =
    { getInit := fun _ => ((mb.getInit u₀).1, L0)
      getDynamics := fun u => ((st u).F, (st u).c, (st u).cholQ)
      getObservation := fun u => ((st u).H, (st u).d, (st u).cholR, (st u).y) } := ⟨_, rfl⟩
  have hso : ∀ u, stepOf lin u = st u := fun u => by rw [hlin]; rfl
  have hin : lin.getInit u₀ = ((mb.getInit u₀).1, L0) := by rw [hlin]
  have heq := taylor_associative_eq qr svd D cb lin rng u₀ us parallel key (by rw [hL0, hin]) fun u hu => by
    rw [(hst u hu).1, hlin]; rfl
  obtain ⟨sk, h2, hlen, hk⟩ := kalman_run qr rng lin u₀ us parallel key fun u hu => by
    rw [hso]; exact (hst u hu).2.1
  obtain ⟨sk', h2', hlen', hk'⟩ := kalman_run qr' rng lg' u₀ us parallel' key' fun u hu => (hst u hu).2.2.1
  have hin' : lg'.getInit u₀ = mb.getInit u₀ := by rw [hlg']; rfl
  rw [← heq] at h2
  rw [hlg', ← moments_associative_is_linearised_kalman] at h2'
  cases hres : (filter rng (buildTaylorFilter qr svd D cb true) (u₀ :: us) parallel key).result with
  | error e => rw [hres] at h2; cases h2
  | ok sts =>
    cases hres' : (filter rng (buildMomentsFilter qr' D mb true) (u₀ :: us) parallel' key').result with
    | error e => rw [hres'] at h2'; cases h2'
    | ok sts' =>
      rw [hres] at h2
      rw [hres'] at h2'
      simp only [Except.map, Except.ok.injEq] at h2 h2'
      refine ⟨sts, sts', rfl, rfl, by rw [← hlen, ← h2, List.length_map], by rw [← hlen', ← h2', List.length_map],
        fun t ht => ?_⟩
      obtain ⟨f, hf, hm, ⟨L, hL, hLP1⟩, hl⟩ := hk t ht
      obtain ⟨f', hf', hm', ⟨L', hL', hLP2⟩, hl'⟩ := hk' t ht
      rw [← h2, List.getElem?_map, Option.map_eq_some_iff] at hf
      rw [← h2', List.getElem?_map, Option.map_eq_some_iff] at hf'
      obtain ⟨s, hs, rfl⟩ := hf
      obtain ⟨s', hs', rfl⟩ := hf'
      have hkf := kfAt_congr lin lg' u₀ us (by rw [hin, hin']) (by rw [hin, hin']; exact hLP)
        (fun u hu k => by rw [hso]; exact (hst u hu).2.2.2 k) t ht
      rw [hkf] at hm hLP1 hl
      rw [hin] at hl
      rw [hin'] at hl'
      exact ⟨s, s', _, L, L', _, hs, hs', hm, hm', hL, hL', by rw [hLP1, hLP2], hl hlow, hl'⟩

/-! ## C102 -/

/-- **C102** (filters). For a nonlinear model with additive Gaussian noise the Taylor filter, given the log densities,
and the moments filter, given the means and covariances, return the same means and covariances when they linearise at
the same states: the tangents of the mean functions at these points. Where the Taylor method linearises in the second
argument (the new state, the observation) is of no importance. The log-likelihoods agree where they are not NaN, and
for the non-associative filters they are not NaN. -/
theorem taylor_filter_is_moments (qr qr' : QR) (svd : SVD) (D : Dummies nx) (cb : TCallbacks nx ny Inp)
    (mb : MCallbacks nx ny Inp) (hr : 0 ≤ cb.rtol) (u₀ : Inp) (us : List Inp) (h : SameModel cb mb u₀ us)
    (rng : Prng K) (associative parallel parallel' : Bool)
    (hpar : associative = true ∨ parallel = false ∧ parallel' = false) (key key' : Option K) :
    ∃ states states',
      (filter rng (buildTaylorFilter qr svd D cb associative) (u₀ :: us) parallel key).result = .ok states ∧
      (filter rng (buildMomentsFilter qr' D mb associative) (u₀ :: us) parallel' key').result = .ok states' ∧
      states.length = us.length + 1 ∧ states'.length = us.length + 1 ∧
      ∀ t ≤ us.length, ∃ s s' m L L', states[t]? = some s ∧ states'[t]? = some s' ∧
        s.mean = some m ∧ s'.mean = some m ∧ s.cholCov = some L ∧ s'.cholCov = some L' ∧ L * Lᵀ = L' * L'ᵀ ∧
        (IsLower (mb.getInit u₀).2 → ∀ l l', s.logNormalizingConstant = some l →
          s'.logNormalizingConstant = some l' → l = l') ∧
        (associative = false → ∃ l, s.logNormalizingConstant = some l ∧ s'.logNormalizingConstant = some l) := by
  cases associative with
  | true =>
    obtain ⟨sts, sts', h1, h2, h3, h4, h5⟩ := taylor_moments_assoc qr qr' svd D cb mb hr u₀ us h rng parallel parallel'
      key key'
    refine ⟨sts, sts', h1, h2, h3, h4, fun t ht => ?_⟩
    obtain ⟨s, s', m, L, L', l, a1, a2, a3, a4, a5, a6, a7, a8, a9⟩ := h5 t ht
    exact ⟨s, s', m, L, L', a1, a2, a3, a4, a5, a6, a7, fun hl b b' hb hb' => (a8 b hb).trans (a9 hl b' hb').symm,
      fun h => by cases h⟩
  | false =>
    obtain ⟨rfl, rfl⟩ : parallel = false ∧ parallel' = false := hpar.resolve_left (by simp)
    obtain ⟨sts, hst, hrun⟩ := filter_sequential_is_online_run rng (buildTaylorFilter (K := K) qr svd D cb false)
      (u₀ :: us) key (by simp)
    obtain ⟨sts', hst', hrun'⟩ := filter_sequential_is_online_run rng (buildMomentsFilter (K := K) qr' D mb false)
      (u₀ :: us) key' (by simp)
    have main : ∀ t ≤ us.length, ∃ s s' k, sts[t]? = some s ∧ sts'[t]? = some s' ∧ Holds s k ∧ Holds s' k := by
      intro t
      induction t with
      | zero =>
        intro _
        obtain ⟨p, x, hp, hgau⟩ := h.init
        obtain ⟨L, hL, -, hLP⟩ := hgau.linearize qr svd hr cb u₀ x rfl hp
        have hini : (buildTaylorFilter (K := K) qr svd D cb false).initPrepare u₀
            (keyAt rng key (u₀ :: us).length 0) = dummyElem D (some (mb.getInit u₀).1) L (some 0) u₀ (some D.vec) := by
          change tInitNonAssoc qr svd D cb u₀ = _
          rw [tInitNonAssoc, hL]
        refine ⟨_, _, ⟨(mb.getInit u₀).1, (mb.getInit u₀).2 * ((mb.getInit u₀).2)ᵀ, 0⟩,
          (hrun.first u₀ rfl).trans (congrArg some hini), hrun'.first u₀ rfl, ⟨rfl, ⟨L, rfl, hLP⟩, rfl⟩,
          ⟨rfl, ⟨(mb.getInit u₀).2, rfl, rfl⟩, rfl⟩⟩
      | succ t ih =>
        intro ht
        obtain ⟨s, s', k, hs, hs', hk, hk'⟩ := ih (by omega)
        have htl : t < us.length := ht
        obtain ⟨k', a1, a2⟩ := taylor_moments_step qr qr' svd D cb mb hr u₀ us h us[t] (List.getElem_mem htl) s s' k hk
          hk'
        exact ⟨_, _, k', hrun.step t us[t] s (by simp) hs, hrun'.step t us[t] s' (by simp) hs', a1, a2⟩
    refine ⟨sts, sts', hst, hst', by simpa using hrun.length_eq, by simpa using hrun'.length_eq, fun t ht => ?_⟩
    obtain ⟨s, s', k, a1, a2, ⟨m1, ⟨L, hL, hLP⟩, e1⟩, ⟨m2, ⟨L', hL', hLP'⟩, e2⟩⟩ := main t ht
    exact ⟨s, s', k.m, L, L', a1, a2, m1, m2, hL, hL', hLP.trans hLP'.symm, fun _ l l' hl hl' => by
      rw [e1] at hl; rw [e2] at hl'; rw [← Option.some.inj hl, ← Option.some.inj hl'], fun _ => ⟨k.l, e1, e2⟩⟩

/-- **C102** (smoothers). On such filter states the Taylor smoother and the moments smoother return the same smoothed
means, covariances, gains and conditional covariances, in both modes. -/
theorem taylor_smoother_is_moments (qr qr' : QR) (svd : SVD) (D : Dummies nx) (cb : TCallbacks nx ny Inp)
    (mb : MCallbacks nx ny Inp) (hr : 0 ≤ cb.rtol) (u₀ : Inp) (us : List Inp) (h : SameModel cb mb u₀ us)
    (rng rng' : Prng K) (associative parallel parallel' : Bool)
    (hpar : associative = true ∨ parallel = false ∧ parallel' = false) (key key' : Option K)
    (opts : SmootherOpts nx Inp) (par : Bool) (k k' : Option K) :
    ∃ fs fs',
      (filter rng (buildTaylorFilter qr svd D cb associative) (u₀ :: us) parallel key).result = .ok fs ∧
      (filter rng (buildMomentsFilter qr' D mb associative) (u₀ :: us) parallel' key').result = .ok fs' ∧
      (smoother rng' LState.modelInputs (fun u => .ok (opts.dummy u))
        (buildTaylorSmoother qr svd cb.rtol cb.ignoreNanDims cb.getDynamics opts) fs (some us) par
          k).result.map (List.map smoothView) =
      (smoother rng' LState.modelInputs (fun u => .ok (opts.dummy u))
        (buildMomentsSmoother qr' mb.getDynamics opts) fs' (some us) par k').result.map (List.map smoothView) := by
  obtain ⟨fs, fs', h1, h2, h3, h4, h5⟩ := taylor_filter_is_moments qr qr' svd D cb mb hr u₀ us h rng associative parallel
    parallel' hpar key key'
  refine ⟨fs, fs', h1, h2, ?_⟩
  have hget : ∀ (t : ℕ) x x', fs[t]? = some x → fs'[t]? = some x' → x.mean = x'.mean ∧ x.mean ≠ none ∧
      x'.cholCov.map (fun L => L * Lᵀ) = x.cholCov.map (fun L => L * Lᵀ) := by
    intro t x x' hx hx'
    have ht : t ≤ us.length := by
      have := (List.getElem?_eq_some_iff.mp hx).1
      omega
    obtain ⟨s, s', m, L, L', a1, a2, a3, a4, a5, a6, a7, -⟩ := h5 t ht
    rw [hx, Option.some.injEq] at a1
    rw [hx', Option.some.injEq] at a2
    subst a1 a2
    exact ⟨a3.trans a4.symm, by rw [a3]; simp, by rw [a5, a6, Option.map_some, Option.map_some, a7]⟩
  rw [map_smoothView, map_smoothView]
  congr 1
  refine smoother_view rng' rng' _ _ _ _ _ sRoot sRoot sRootOp (fun a b => sRoot_combine qr a b)
    (fun a b => sRoot_combine qr' a b) fs fs' us (by omega) (by omega) (fun t x x' u hx hx' hu _ _ => ?_)
    (fun x x' hx hx' d _ _ => ?_) par k k'
  · obtain ⟨e1, e2, e3⟩ := hget t x x' hx hx'
    obtain ⟨p, f, cholQ, xp, xc, d1, d2, d3⟩ := h.dynamics u (List.mem_of_getElem? hu) x x' e1 e2
    obtain ⟨L, -, hL, hlin⟩ := d3.linearize qr svd hr cb.ignoreNanDims xp xc
    have b1 : (buildTaylorSmoother (K := K) qr svd cb.rtol cb.ignoreNanDims cb.getDynamics opts).smootherPrepare x u
        = fun _ => smootherStateOf qr opts x u (some (jacfwd f xp, f xp - jacfwd f xp *ᵥ xp, L)) := by
      funext _
      simp only [buildTaylorSmoother, d1]
      rw [hlin]
      simp only []
      rw [finite_some _ (jacfwd f xp) fun _ _ => rfl, finiteVec_some _ (f xp - jacfwd f xp *ᵥ xp) fun _ => rfl,
        finite_some _ L fun _ _ => rfl]
      rfl
    have b2 : (buildMomentsSmoother (K := K) qr' mb.getDynamics opts).smootherPrepare x' u
        = fun _ => smootherStateOf qr' opts x' u (some (jacfwd f xp, f xp - jacfwd f xp *ᵥ xp, cholQ)) := by
      funext _
      simp only [buildMomentsSmoother, d2]
      rfl
    rw [b1, b2, smootherStateOf_some, smootherStateOf_some]
    exact sRoot_prepare qr qr' (fun _ => (jacfwd f xp, f xp - jacfwd f xp *ᵥ xp, L))
      (fun _ => (jacfwd f xp, f xp - jacfwd f xp *ᵥ xp, cholQ)) (fun _ => rfl) (fun _ => rfl) (fun _ => hL) opts _ _ u
      e1.symm e3
  · rw [List.getLast?_eq_getElem?] at hx hx'
    rw [show fs'.length - 1 = fs.length - 1 by omega] at hx'
    obtain ⟨e1, e2, e3⟩ := hget _ x x' hx hx'
    exact sRoot_convert opts _ _ d e1.symm e3

/-! ## The hypotheses can be met -/

/-- Every nonlinear model with additive Gaussian noise, twice continuously differentiable mean functions and
well-conditioned covariances has such callbacks, with any linearisation points that depend on the mean of the state. -/
theorem exists_same_model (nl : Inp → NStep nx ny) (m0 : Fin nx → ℝ) (cholP0 : Matrix (Fin nx) (Fin nx) ℝ) (rtol : ℝ)
    (hf : ∀ u, ContDiff ℝ 2 (nl u).f) (hh : ∀ u, ContDiff ℝ 2 (nl u).h)
    (hP : WellConditioned rtol (cholP0 * cholP0ᵀ))
    (hQ : ∀ u, WellConditioned rtol ((nl u).cholQ * ((nl u).cholQ)ᵀ))
    (hR : ∀ u, WellConditioned rtol ((nl u).cholR * ((nl u).cholR)ᵀ))
    (pts : Option (Fin nx → ℝ) → Inp → Fin 4 → Fin nx → ℝ) :
    ∃ (cb : TCallbacks nx ny Inp) (mb : MCallbacks nx ny Inp), cb.rtol = rtol ∧
      (∀ s u, (cb.getDynamics s u).2 = (fun i => some (pts s.mean u 0 i), fun i => some (pts s.mean u 1 i))) ∧
      (∀ s u, mb.getDynamics s u = (fun x => ((nl u).f x, (nl u).cholQ), pts s.mean u 0)) ∧
      (∀ s u, mb.getObservation s u = (fun x => ((nl u).h x, (nl u).cholR), pts s.mean u 2, (nl u).y)) ∧
      ∀ u₀ us, SameModel cb mb u₀ us := by
  obtain ⟨p0, hp0, had0⟩ := exists_potential (gaussLogDensity m0 (cholP0 * cholP0ᵀ))
  have hex : ∀ u, ∃ p : CondDensity nx nx, p.AD ∧ ∀ x z, p.value x (fun i => some (z i)) =
      gaussLogDensity ((nl u).f x) ((nl u).cholQ * ((nl u).cholQ)ᵀ) z := by
    intro u
    obtain ⟨p, hp, had⟩ := exists_condDensity (nx := nx) (ny := nx) fun x y => gaussLogDensity ((nl u).f x)
      ((nl u).cholQ * ((nl u).cholQ)ᵀ) fun i => (y i).getD 0
    exact ⟨p, had, fun x z => by rw [hp]; rfl⟩
  have hex' : ∀ u, ∃ p : CondDensity nx ny, p.AD ∧ ∀ x (z : Obs (nl u).y → ℝ), p.value x (fillObs (nl u).y z) =
      gaussLogDensity (obsV (nl u).y ((nl u).h x))
        (((nl u).cholR * ((nl u).cholR)ᵀ).submatrix Subtype.val Subtype.val) z := by
    intro u
    obtain ⟨p, hp, had⟩ := exists_condDensity (nx := nx) (ny := ny) fun x y => gaussLogDensity (obsV (nl u).y ((nl u).h x))
      (((nl u).cholR * ((nl u).cholR)ᵀ).submatrix Subtype.val Subtype.val : Matrix (Obs (nl u).y) (Obs (nl u).y) ℝ)
      fun i => (y i.1).getD 0
    refine ⟨p, had, fun x z => ?_⟩
    rw [hp]
    refine congrArg (gaussLogDensity _ _) (funext fun i => ?_)
    simp [fillObs, i.2]
  choose p hp using hex
  choose q hq using hex'
  refine ⟨{ getInit := fun _ => (p0, fun i => some (m0 i))
            getDynamics := fun s u => (p u, fun i => some (pts s.mean u 0 i), fun i => some (pts s.mean u 1 i))
            getObservation := fun s u => .density (q u) (fun i => some (pts s.mean u 2 i)) (nl u).y
            rtol := rtol, ignoreNanDims := true },
          { getInit := fun _ => (m0, cholP0)
            getDynamics := fun s u => (fun x => ((nl u).f x, (nl u).cholQ), pts s.mean u 0)
            getObservation := fun s u => (fun x => ((nl u).h x, (nl u).cholR), pts s.mean u 2, (nl u).y) },
          rfl, fun _ _ => rfl, fun _ _ => rfl, fun _ _ => rfl, fun u₀ us =>
          ⟨⟨p0, m0, rfl, had0, hP, 0, fun x => by rw [hp0, add_zero]⟩, fun u _ s s' hs _ => ?_, fun u _ s s' hs _ => ?_⟩⟩
  · exact ⟨p u, (nl u).f, (nl u).cholQ, pts s.mean u 0, pts s.mean u 1, rfl, by rw [hs],
      (hp u).1, hf u, hQ u, 0, fun x z => by rw [(hp u).2, add_zero]⟩
  · exact ⟨q u, (nl u).h, (nl u).cholR, pts s.mean u 2, (nl u).y, rfl, by rw [hs],
      ⟨(hq u).1, hh u, (hR u).obs _, 0, fun x z => by rw [(hq u).2, add_zero]⟩, .inl rfl⟩

/-- Non-vacuity for C102: the extended Kalman filter of `x_t = sin x_{t-1} + w_t`, `y_t = x_t ^ 2 + v_t`, linearised at
the filtered and predicted means. -/
example : ∃ (cb : TCallbacks 1 1 (ℝ × ℝ × ℝ)) (mb : MCallbacks 1 1 (ℝ × ℝ × ℝ)), cb.rtol = 1 / 2 ∧
    (∀ s u, mb.getDynamics s u = (fun x => ((sineStep u).f x, (sineStep u).cholQ), s.mean.getD 0)) ∧
    (∀ s u, mb.getObservation s u = (fun x => ((sineStep u).h x, (sineStep u).cholR), s.mean.getD 0, (sineStep u).y)) ∧
    ∀ u₀ us, SameModel cb mb u₀ us := by
  have hw : WellConditioned (1 / 2) ((1 : Matrix (Fin 1) (Fin 1) ℝ) * (1 : Matrix (Fin 1) (Fin 1) ℝ)ᵀ) := by
    rw [Matrix.transpose_one, Matrix.mul_one]
    exact ⟨Matrix.isSymm_one, 1, 1, one_pos, by norm_num, fun x => by rw [Matrix.one_mulVec, one_mul]; exact ⟨le_rfl, le_rfl⟩⟩
  obtain ⟨cb, mb, h1, -, h3, h4, h5⟩ := exists_same_model sineStep 0 1 (1 / 2)
    (fun u => contDiff_pi.mpr fun i => Real.contDiff_sin.comp (contDiff_apply ℝ ℝ i))
    (fun u => contDiff_pi.mpr fun i => (contDiff_apply ℝ ℝ i).pow 2) hw (fun _ => hw) (fun _ => hw)
    fun m _ _ => m.getD 0
  exact ⟨cb, mb, h1, h3, h4, h5⟩

end

end Cuthbert.Linearize
