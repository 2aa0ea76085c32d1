import Verif.Props.TaylorFilter

/-!
# One step of the linearised filters on any model (C67)

The extended Kalman filter: the dynamics are linearised at the point the callbacks choose given the previous
filtering state, the observation model at the point they choose given the *predicted* state.
-/

namespace Cuthbert.Linearize
open MeasureTheory ProbabilityTheory Matrix Cuthbert Cuthbert.Spec Kalman
open scoped ENNReal

noncomputable section

set_option linter.unusedSectionVars false

variable {nx ny ny' n : ℕ} {Inp K : Type*}

/-! ## Specification -/

/-- The first-order Taylor polynomial of the conditional mean at `x₀`, evaluated at `x`. -/
def tangentMean (f : MomentsFn nx ny) (x₀ x : Fin nx → ℝ) : Fin ny → ℝ :=
  (f x₀).1 + fderiv ℝ (fun z => (f z).1) x₀ (x - x₀)

/-- The state is the Gaussian `N(m, P)` with log normalising constant `l`. -/
structure IsState (s : LState nx Inp) (m : Fin nx → ℝ) (P : Matrix (Fin nx) (Fin nx) ℝ) (l : ℝ) : Prop where
  mean : s.mean = some m
  cov : s.cholCov.map (fun L => L * Lᵀ) = some P
  ell : s.logNormalizingConstant = some l

theorem IsState.holds {s : LState nx Inp} {m : Fin nx → ℝ} {P : Matrix (Fin nx) (Fin nx) ℝ} {l : ℝ}
    (h : IsState s m P l) : Holds s ⟨m, P, l⟩ := by
  refine ⟨h.mean, ?_, h.ell⟩
  have := h.cov
  cases hL : s.cholCov with
  | none => rw [hL] at this; cases this
  | some L =>
    rw [hL, Option.map_some, Option.some.injEq] at this
    exact ⟨L, rfl, this⟩

theorem Holds.isState {s : LState nx Inp} {k : KF nx} (h : Holds s k) : IsState s k.m k.P k.l := by
  obtain ⟨L, hL, hLP⟩ := h.cov
  exact ⟨h.mean, by rw [hL, Option.map_some, hLP], h.ell⟩

theorem linearize_eq_tangent (f : MomentsFn nx ny) (x₀ x : Fin nx → ℝ) :
    (linearizeMoments f x₀).1 *ᵥ x + (linearizeMoments f x₀).2.1 = tangentMean f x₀ x := by
  have h : ∀ v, (linearizeMoments f x₀).1 *ᵥ v = fderiv ℝ (fun z => (f z).1) x₀ v := fun v => by
    simp only [linearizeMoments, jacfwd]
    rw [← Matrix.toLin'_apply, Matrix.toLin'_toMatrix']
    rfl
  have h2 : (linearizeMoments f x₀).2.1 = (f x₀).1 - (linearizeMoments f x₀).1 *ᵥ x₀ := rfl
  rw [h2, h, h, tangentMean, map_sub]
  abel

/-- The predicted state. -/
theorem predictState_facts (qr : QR) (D : Dummies nx) (s₁ : LState nx Inp) (u : Inp) (m : Fin nx → ℝ)
    (P : Matrix (Fin nx) (Fin nx) ℝ) (l : ℝ) (h : IsState s₁ m P l) (F : Matrix (Fin nx) (Fin nx) ℝ)
    (c : Fin nx → ℝ) (cholQ : Matrix (Fin nx) (Fin nx) ℝ) :
    IsState (predictState qr D s₁ u (some (F, c, cholQ))) (F *ᵥ m + c) (F * P * Fᵀ + cholQ * cholQᵀ) l ∧
    (predictState qr D s₁ u (some (F, c, cholQ))).modelInputs = u ∧
    (predictState qr D s₁ u (some (F, c, cholQ))).meanPrev = some m := by
  obtain ⟨hm, ⟨L, hL, hLP⟩, hl⟩ := h.holds
  have hpr : predictState qr D s₁ u (some (F, c, cholQ)) =
      dummyElem D (some (predict qr m L F c cholQ).1) (predict qr m L F c cholQ).2 (some l) u (some m) := by
    simp only [predictState, hm, hL, hl]
  rw [hpr]
  refine ⟨⟨rfl, ?_, rfl⟩, rfl, rfl⟩
  rw [dummyElem_cholCov, Option.map_some, predict_gram, hLP]

/-- Predict and update with given parameters is conditioning. -/
theorem update_predict_law (qr : QR) (D : Dummies nx) (s₁ : LState nx Inp) (u : Inp) (m : Fin nx → ℝ)
    (L : Matrix (Fin nx) (Fin nx) ℝ) (l : ℝ) (h : IsState s₁ m (L * Lᵀ) l) (st : Step nx n)
    (hR : st.R.det ≠ 0) :
    ∃ m' L' l', IsState (updateState qr D s₁ (predictState qr D s₁ u (some (st.F, st.c, st.cholQ))) u
        (some ⟨st.H, st.d, st.cholR, st.y⟩)) m' (L' * L'ᵀ) l' ∧
      (updateState qr D s₁ (predictState qr D s₁ u (some (st.F, st.c, st.cholQ))) u
        (some ⟨st.H, st.d, st.cholR, st.y⟩)).modelInputs = u ∧
      (updateState qr D s₁ (predictState qr D s₁ u (some (st.F, st.c, st.cholQ))) u
        (some ⟨st.H, st.d, st.cholR, st.y⟩)).meanPrev = some m ∧
      ∀ φ : (Fin nx → ℝ) → ℝ≥0∞, Measurable φ →
        ∫⁻ x, ∫⁻ x', st.lik x' * φ x' ∂gauss (st.F *ᵥ x + st.c) st.cholQ ∂gauss m L =
          ENNReal.ofReal (Real.exp (l' - l)) * ∫⁻ x, φ x ∂gauss m' L' := by
  obtain ⟨h1, h2, h3⟩ := step_holds qr D s₁ u ⟨m, L * Lᵀ, l⟩ h.holds st
    (innov_det_of_R st hR (pred_gram (isGram_of L) st))
  obtain ⟨L', -, hL'⟩ := h1.cov
  refine ⟨_, L', _, by rw [hL']; exact h1.isState, h2, by rw [h3, h.mean], fun φ hφ => ?_⟩
  exact one_step m (L * Lᵀ) l L rfl st hR L' hL' hφ

/-! ## C67 -/

/-- **C67** (moments). One step of the non-associative moments filter, for any conditional moments. If the
previous state is `N(m, LLᵀ)` with log normalising constant `l`, then the callbacks are given, for the
observation model, a state holding the prediction of the dynamics' tangent model at the point they chose for the
previous state; and the new state is the exact posterior under the two tangent models, `exp (l' - l)` being the
exact likelihood of the new observation. -/
theorem moments_step_is_extended_kalman (qr : QR) (D : Dummies nx) (cb : MCallbacks nx ny Inp)
    (s₁ : LState nx Inp) (u : Inp) (key : Option K) (m : Fin nx → ℝ) (L : Matrix (Fin nx) (Fin nx) ℝ) (l : ℝ)
    (h : IsState s₁ m (L * Lᵀ) l) :
    ∃ (pr : LState nx Inp) (J : Matrix (Fin nx) (Fin nx) ℝ),
      (∀ v, J *ᵥ v = fderiv ℝ (fun z => ((cb.getDynamics s₁ u).1 z).1) (cb.getDynamics s₁ u).2 v) ∧
      IsState pr (tangentMean (cb.getDynamics s₁ u).1 (cb.getDynamics s₁ u).2 m)
        (J * (L * Lᵀ) * Jᵀ + ((cb.getDynamics s₁ u).1 (cb.getDynamics s₁ u).2).2 *
          (((cb.getDynamics s₁ u).1 (cb.getDynamics s₁ u).2).2)ᵀ) l ∧
      pr.modelInputs = u ∧ pr.meanPrev = some m ∧
      ∀ (f : MomentsFn nx nx) (x₁ : Fin nx → ℝ) (g : MomentsFn nx ny) (x₂ : Fin nx → ℝ) (y : Fin ny → Option ℝ)
        (R : Matrix (Obs y) (Obs y) ℝ), cb.getDynamics s₁ u = (f, x₁) → cb.getObservation pr u = (g, x₂, y) →
        R = ((g x₂).2 * ((g x₂).2)ᵀ).submatrix Subtype.val Subtype.val → R.det ≠ 0 →
        ∃ s m' L' l', s = (buildMomentsFilter (K := K) qr D cb false).filterCombine s₁
            ((buildMomentsFilter (K := K) qr D cb false).filterPrepare u key) ∧
          IsState s m' (L' * L'ᵀ) l' ∧ s.modelInputs = u ∧ s.meanPrev = some m ∧
          ∀ φ : (Fin nx → ℝ) → ℝ≥0∞, Measurable φ →
            ∫⁻ x, ∫⁻ x', ENNReal.ofReal (Real.exp (gaussLogDensity (obsV y (tangentMean g x₂ x')) R (obsY y))) *
                φ x' ∂gauss (tangentMean f x₁ x) (f x₁).2 ∂gauss m L =
              ENNReal.ofReal (Real.exp (l' - l)) * ∫⁻ x, φ x ∂gauss m' L' := by
  obtain ⟨h1, h2, h3⟩ := predictState_facts qr D s₁ u m _ l h (mDynamics cb s₁ u).1 (mDynamics cb s₁ u).2.1
    (mDynamics cb s₁ u).2.2
  refine ⟨predictState qr D s₁ u (some (mDynamics cb s₁ u)), (mDynamics cb s₁ u).1, fun v => ?_, ?_, h2, h3, ?_⟩
  · simp only [mDynamics, linearizeMoments, jacfwd]
    rw [← Matrix.toLin'_apply, Matrix.toLin'_toMatrix']
    rfl
  · rw [← linearize_eq_tangent]
    exact h1
  · intro f x₁ g x₂ y R hf hg hR hdet
    have hdyn : mDynamics cb s₁ u = linearizeMoments f x₁ := by simp only [mDynamics, hf]
    have hobs : mObservation cb (predictState qr D s₁ u (some (mDynamics cb s₁ u))) u =
        ⟨(linearizeMoments g x₂).1, (linearizeMoments g x₂).2.1, (linearizeMoments g x₂).2.2, y⟩ := by
      simp only [mObservation, hg]
    obtain ⟨st, hst⟩ : ∃ st : Step nx ny, st = ⟨(linearizeMoments f x₁).1, (linearizeMoments f x₁).2.1,
      (linearizeMoments f x₁).2.2, (linearizeMoments g x₂).1, (linearizeMoments g x₂).2.1,
      (linearizeMoments g x₂).2.2, y⟩ := ⟨_, rfl⟩
    have hRst : st.R.det ≠ 0 := by rw [hst]; rw [hR] at hdet; exact hdet
    obtain ⟨m', L', l', a1, a2, a3, a4⟩ := update_predict_law qr D s₁ u m L l h st hRst
    have hs : (buildMomentsFilter (K := K) qr D cb false).filterCombine s₁
        ((buildMomentsFilter (K := K) qr D cb false).filterPrepare u key) =
        updateState qr D s₁ (predictState qr D s₁ u (some (st.F, st.c, st.cholQ))) u
        (some ⟨st.H, st.d, st.cholR, st.y⟩) := by
      change updateState qr D s₁ (predictState qr D s₁ u (some (mDynamics cb s₁ u))) u
        (some (mObservation cb (predictState qr D s₁ u (some (mDynamics cb s₁ u))) u)) = _
      rw [hobs, hdyn, hst]
    refine ⟨_, m', L', l', rfl, by rw [hs]; exact a1, by rw [hs]; exact a2, by rw [hs]; exact a3,
      fun φ hφ => ?_⟩
    rw [← a4 φ hφ]
    refine lintegral_congr fun x => ?_
    have e1 : gauss (tangentMean f x₁ x) (f x₁).2 = gauss (st.F *ᵥ x + st.c) st.cholQ := by
      rw [← linearize_eq_tangent, hst]; rfl
    rw [e1]
    refine lintegral_congr fun x' => ?_
    have e2 : st.lik x' = ENNReal.ofReal (Real.exp (gaussLogDensity (obsV y (tangentMean g x₂ x')) R (obsY y))) := by
      rw [← linearize_eq_tangent, hst, hR]
      rfl
    rw [e2]

/-- What the observation is replaced by: `linearize_log_density` returned `H`, `d` and a factor `C` of the noise
covariance on the observed components, or `linearize_taylor` returned the mean `d` and a factor `C` of the
covariance of a potential on the components that are not marked by NaN. -/
inductive LinearisedTo (qr : QR) (svd : SVD) (rtol : ℝ) (ign : Bool) :
    ObsOutput nx ny → ((Fin nx → ℝ) → ℝ≥0∞) → Prop
  | density (p : CondDensity nx ny) (x : Fin nx → Option ℝ) (y : Fin ny → Option ℝ)
      (H : Matrix (Fin ny) (Fin nx) ℝ) (d : Fin ny → ℝ) (C : Matrix (Fin ny) (Fin ny) ℝ)
      (hH : ∀ (i : Obs y) j, (linearizeLogDensity qr svd rtol ign p x y).1 i.1 j = some (H i.1 j))
      (hd : ∀ i : Obs y, (linearizeLogDensity qr svd rtol ign p x y).2.1 i.1 = some (d i.1))
      (hC : ∀ (i : Obs y) j, (linearizeLogDensity qr svd rtol ign p x y).2.2 i.1 j = some (C i.1 j))
      (hdet : (obsL y C * (obsL y C)ᵀ).det ≠ 0) :
      LinearisedTo qr svd rtol ign (.density p x y) fun x => ENNReal.ofReal (Real.exp
        (gaussLogDensity (obsH y H *ᵥ x + obsV y d) (obsL y C * (obsL y C)ᵀ) (obsY y)))
  | potential (p : Potential nx) (x : Fin nx → Option ℝ) (mask : Fin nx → Bool)
      (hm : ∀ i, mask i = false ↔ (linearizeTaylor qr svd rtol ign p x).2 i i = none ∧ ign = true)
      (d : Fin nx → ℝ) (C : Matrix (Fin nx) (Fin nx) ℝ)
      (hd : ∀ i : Obs (maskY mask), (linearizeTaylor qr svd rtol ign p x).1 i.1 = some (d i.1))
      (hC : ∀ (i : Obs (maskY mask)) j, (linearizeTaylor qr svd rtol ign p x).2 i.1 j = some (C i.1 j))
      (hdet : (obsL (maskY mask) C * (obsL (maskY mask) C)ᵀ).det ≠ 0) :
      LinearisedTo qr svd rtol ign (.potential p x) fun x => ENNReal.ofReal (Real.exp
        (gaussLogDensity (obsV (maskY mask) d) (obsL (maskY mask) C * (obsL (maskY mask) C)ᵀ)
          (obsV (maskY mask) x)))

theorem finiteObs_rows (H : Fin ny → Fin nx → Option ℝ) (d : Fin ny → Option ℝ) (C : NMat ny)
    (y : Fin ny → Option ℝ) (H' : Matrix (Fin ny) (Fin nx) ℝ) (d' : Fin ny → ℝ)
    (C' : Matrix (Fin ny) (Fin ny) ℝ) (h1 : ∀ (i : Obs y) j, H i.1 j = some (H' i.1 j))
    (h2 : ∀ i : Obs y, d i.1 = some (d' i.1)) (h3 : ∀ (i : Obs y) j, C i.1 j = some (C' i.1 j)) :
    ∃ o : ObsParams nx ny, finiteObs H d C y = some o ∧ o.y = y ∧ obsH y o.H = obsH y H' ∧
      obsV y o.d = obsV y d' ∧ obsL y o.cholR = obsL y C' := by
  refine ⟨⟨Matrix.of fun i j => (H i j).getD 0, fun i => (d i).getD 0,
        Matrix.of fun i j => (C i j).getD 0, y⟩, if_pos fun i hi => ⟨fun j => by rw [h1 ⟨i, hi⟩]; rfl,
          by rw [h2 ⟨i, hi⟩]; rfl, fun j => by rw [h3 ⟨i, hi⟩]; rfl⟩, rfl, ?_, ?_, ?_⟩
  · ext i j
    simp only [obsH, Matrix.submatrix_apply, Matrix.of_apply, id]
    rw [h1]; rfl
  · funext i
    simp only [obsV]
    rw [h2]; rfl
  · ext i j
    simp only [obsL, Matrix.submatrix_apply, Matrix.of_apply, id]
    rw [h3]; rfl

/-- **C67** (Taylor). One step of the non-associative Taylor filter, for any log densities or potentials: with the
dynamics linearised at the points the callbacks chose for the previous state (or skipped), giving `F`, `c`, `Q`,
the callbacks are given for the observation a state holding the prediction; and the new state is the exact
posterior under the two linearised models, `exp (l' - l)` being the total weight. What `linearize_log_density`
and `linearize_taylor` return is C34 and C36. -/
theorem taylor_step_is_extended_kalman (qr : QR) (svd : SVD) (D : Dummies nx) (cb : TCallbacks nx ny Inp)
    (hnx : 0 < nx) (s₁ : LState nx Inp) (u : Inp) (key : Option K) (m : Fin nx → ℝ)
    (L : Matrix (Fin nx) (Fin nx) ℝ) (l : ℝ) (h : IsState s₁ m (L * Lᵀ) l) (F : Matrix (Fin nx) (Fin nx) ℝ)
    (c : Fin nx → ℝ) (cholQ : Matrix (Fin nx) (Fin nx) ℝ)
    (hdyn : (∃ p, cb.getDynamics s₁ u = (p, fun _ => none, fun _ => none) ∧ F = 1 ∧ c = 0 ∧ cholQ = 0) ∨
      ∃ p xPrev xCurr, cb.getDynamics s₁ u = (p, xPrev, xCurr) ∧
        linearizeLogDensity qr svd cb.rtol cb.ignoreNanDims p xPrev xCurr =
          (fun i j => some (F i j), fun i => some (c i), fun i j => some (cholQ i j))) :
    ∃ pr : LState nx Inp, IsState pr (F *ᵥ m + c) (F * (L * Lᵀ) * Fᵀ + cholQ * cholQᵀ) l ∧
      pr.modelInputs = u ∧ pr.meanPrev = some m ∧
      ∀ g : (Fin nx → ℝ) → ℝ≥0∞, LinearisedTo qr svd cb.rtol cb.ignoreNanDims (cb.getObservation pr u) g →
        ∃ s m' L' l', s = (buildTaylorFilter (K := K) qr svd D cb false).filterCombine s₁
            ((buildTaylorFilter (K := K) qr svd D cb false).filterPrepare u key) ∧
          IsState s m' (L' * L'ᵀ) l' ∧ s.modelInputs = u ∧ s.meanPrev = some m ∧
          ∀ φ : (Fin nx → ℝ) → ℝ≥0∞, Measurable φ →
            ∫⁻ x, ∫⁻ x', g x' * φ x' ∂gauss (F *ᵥ x + c) cholQ ∂gauss m L =
              ENNReal.ofReal (Real.exp (l' - l)) * ∫⁻ x, φ x ∂gauss m' L' := by
  have hd : tDynamics qr svd cb s₁ u = some (F, c, cholQ) := by
    rcases hdyn with ⟨p, h1, rfl, rfl, rfl⟩ | ⟨p, xp, xc, h1, h2⟩
    · unfold tDynamics
      rw [h1]
      simp only []
      rw [if_pos ⟨fun _ => rfl, fun _ => rfl⟩]
    · unfold tDynamics
      rw [h1]
      simp only []
      rw [if_neg, h2]
      · simp only []
        rw [finite_some _ F fun _ _ => rfl, finiteVec_some _ c fun _ => rfl, finite_some _ cholQ fun _ _ => rfl]
        rfl
      · rintro ⟨hc, -⟩
        have h3 := congrFun (congrArg (fun q => q.2.1) h2) ⟨0, hnx⟩
        simp [linearizeLogDensity, linearizeGivenCholCov, hc] at h3
  obtain ⟨h1, h2, h3⟩ := predictState_facts qr D s₁ u m _ l h F c cholQ
  obtain ⟨pr, hpr⟩ : ∃ pr, pr = predictState qr D s₁ u (some (F, c, cholQ)) := ⟨_, rfl⟩
  refine ⟨pr, hpr ▸ h1, hpr ▸ h2, hpr ▸ h3, fun g hg => ?_⟩
  have key : ∀ (n : ℕ) (o : ObsParams nx n), (obsL o.y o.cholR * (obsL o.y o.cholR)ᵀ).det ≠ 0 →
      g = (fun x => ENNReal.ofReal (Real.exp (gaussLogDensity (obsH o.y o.H *ᵥ x + obsV o.y o.d)
        (obsL o.y o.cholR * (obsL o.y o.cholR)ᵀ) (obsY o.y)))) →
      tCombineNonAssoc qr svd D cb s₁ (prepareNonAssoc D u) = updateState qr D s₁ pr u (some o) →
      ∃ s m' L' l', s = (buildTaylorFilter (K := K) qr svd D cb false).filterCombine s₁
            ((buildTaylorFilter (K := K) qr svd D cb false).filterPrepare u key) ∧
          IsState s m' (L' * L'ᵀ) l' ∧ s.modelInputs = u ∧ s.meanPrev = some m ∧
          ∀ φ : (Fin nx → ℝ) → ℝ≥0∞, Measurable φ →
            ∫⁻ x, ∫⁻ x', g x' * φ x' ∂gauss (F *ᵥ x + c) cholQ ∂gauss m L =
              ENNReal.ofReal (Real.exp (l' - l)) * ∫⁻ x, φ x ∂gauss m' L' := by
    intro n o hdet hgo hup
    obtain ⟨st, hst⟩ : ∃ st : Step nx n, st = ⟨F, c, cholQ, o.H, o.d, o.cholR, o.y⟩ := ⟨_, rfl⟩
    have hRst : st.R.det ≠ 0 := by rw [hst]; exact hdet
    obtain ⟨m', L', l', a1, a2, a3, a4⟩ := update_predict_law qr D s₁ u m L l h st hRst
    have hs : (buildTaylorFilter (K := K) qr svd D cb false).filterCombine s₁
            ((buildTaylorFilter (K := K) qr svd D cb false).filterPrepare u key) =
        updateState qr D s₁ (predictState qr D s₁ u (some (st.F, st.c, st.cholQ))) u
        (some ⟨st.H, st.d, st.cholR, st.y⟩) := by
      change tCombineNonAssoc qr svd D cb s₁ (prepareNonAssoc D u) = _
      rw [hup, hst, hpr]
    refine ⟨_, m', L', l', rfl, by rw [hs]; exact a1, by rw [hs]; exact a2, by rw [hs]; exact a3,
      fun φ hφ => ?_⟩
    rw [← a4 φ hφ, hst, hgo]
    rfl
  have hcomb : tCombineNonAssoc qr svd D cb s₁ (prepareNonAssoc D u) =
      match cb.getObservation pr u with
      | .density p x y => updateState qr D s₁ pr u (processDensity qr svd cb.rtol cb.ignoreNanDims p x y)
      | .potential p x => updateState qr D s₁ pr u (processPotential qr svd cb.rtol cb.ignoreNanDims p x) := by
    have hu : (prepareNonAssoc D u).modelInputs = u := rfl
    unfold tCombineNonAssoc
    simp only [hu, hd, ← hpr]
    cases cb.getObservation pr u <;> rfl
  obtain ⟨ob, hob⟩ : ∃ ob, ob = cb.getObservation pr u := ⟨_, rfl⟩
  rw [← hob] at hg hcomb
  cases hg with
  | density p x y H d C hH hdd hC hdet =>
    obtain ⟨o, ho, hy, e1, e2, e3⟩ := finiteObs_rows _ _ _ y H d C hH hdd hC
    subst hy
    refine key _ o (by rw [e3]; exact hdet) (by rw [e1, e2, e3]) (hcomb.trans ?_)
    have : processDensity qr svd cb.rtol cb.ignoreNanDims p x o.y = some o := ho
    simp only [this]
  | potential p x mask hm d C hdd hC hdet =>
    obtain ⟨o, ho, hy, e1, e2, e3⟩ := finiteObs_rows (fun i j => some ((-1 : Matrix (Fin nx) (Fin nx) ℝ) i j))
      (linearizeTaylor qr svd cb.rtol cb.ignoreNanDims p x).1 (linearizeTaylor qr svd cb.rtol cb.ignoreNanDims p x).2
      (maskY mask) (-1) d C (fun _ _ => rfl) hdd hC
    have hyy : (fun i => if ((linearizeTaylor qr svd cb.rtol cb.ignoreNanDims p x).2 i i).isNone && cb.ignoreNanDims
        then none else some (0 : ℝ)) = maskY mask := by
      funext i
      unfold maskY
      cases hmi : mask i with
      | false =>
        obtain ⟨h1, h2⟩ := (hm i).mp hmi
        rw [h1, h2]; simp
      | true =>
        rw [if_neg, if_pos rfl]
        intro hn
        rw [Bool.and_eq_true, Option.isNone_iff_eq_none] at hn
        rw [(hm i).mpr hn] at hmi
        cases hmi
    refine key _ o (by rw [hy, e3]; exact hdet) ?_ (hcomb.trans ?_)
    · funext x'
      rw [hy, e1, e2, e3]
      congr 2
      have h0 : obsY (maskY mask) = 0 := by
        funext i
        have := i.2
        simp only [obsY, maskY, Pi.zero_apply] at this ⊢
        split_ifs <;> rfl
      have h1 : obsH (maskY mask) (-1 : Matrix (Fin nx) (Fin nx) ℝ) *ᵥ x' + obsV (maskY mask) d =
          obsV (maskY mask) d - obsV (maskY mask) x' := by
        funext i
        have : (obsH (maskY mask) (-1 : Matrix (Fin nx) (Fin nx) ℝ) *ᵥ x') i =
            ((-1 : Matrix (Fin nx) (Fin nx) ℝ) *ᵥ x') i.1 := rfl
        rw [Pi.add_apply, this, Matrix.neg_mulVec, Matrix.one_mulVec]
        simp only [Pi.neg_apply, Pi.sub_apply, obsV]
        ring
      rw [h0, h1]
      simp only [gaussLogDensity]
      have h2 : (0 : Obs (maskY mask) → ℝ) - (obsV (maskY mask) d - obsV (maskY mask) x') =
          obsV (maskY mask) x' - obsV (maskY mask) d := by abel
      rw [h2]
    · have : processPotential qr svd cb.rtol cb.ignoreNanDims p x = some o := by
        unfold processPotential
        simp only []
        rw [hyy]
        exact ho
      simp only [this]

/-- Every smooth potential with a well-conditioned negative Hessian at the chosen point is `LinearisedTo`
something (what it is is C36). -/
theorem linearisedTo_of_smooth (qr : QR) (svd : SVD) (rtol : ℝ) (hr : 0 ≤ rtol) (ign : Bool) (p : Potential nx)
    (hAD : p.AD) (x : Fin nx → ℝ) (hcd : ContDiff ℝ 2 p.value)
    (hP : WellConditioned rtol (Matrix.of fun i j : Fin nx =>
      -lineDeriv ℝ (fun z => lineDeriv ℝ p.value z (Pi.single i 1)) x (Pi.single j 1))) :
    ∃ g, LinearisedTo (ny := ny) qr svd rtol ign (.potential p fun i => some (x i)) g := by
  obtain ⟨P, hPd⟩ : ∃ P : Matrix (Fin nx) (Fin nx) ℝ, P = Matrix.of fun i j : Fin nx =>
      -lineDeriv ℝ (fun z => lineDeriv ℝ p.value z (Pi.single i 1)) x (Pi.single j 1) := ⟨_, rfl⟩
  rw [← hPd] at hP
  obtain ⟨L, -, l2, l3, -, l5, -, -⟩ := linearizeTaylor_eq qr svd rtol hr ign p x (maskY fun _ => true)
    (Or.inr fun i => by simp [maskY]) _ _ (hP.obs (maskY fun _ => true)) (fun i => hAD.grad x hcd i)
    (fun i j => by rw [hAD.hess x hcd, Matrix.submatrix_apply, hPd, Matrix.of_apply, neg_neg])
    (fun i j h => by simp [maskY] at h)
  refine ⟨_, .potential p _ (fun _ => true) (fun i => ?_) (fun i => ((linearizeTaylor qr svd rtol ign p
    fun i => some (x i)).1 i).getD 0) (Matrix.of fun i j => L ⟨i, rfl⟩ ⟨j, rfl⟩) (fun i => ?_) (fun i j => ?_) ?_⟩
  · rw [l5 ⟨i, rfl⟩ ⟨i, rfl⟩]; simp
  · rw [l3]; rfl
  · exact l5 i ⟨j, rfl⟩
  · intro h0
    have e : obsL (maskY fun _ : Fin nx => true) (Matrix.of fun i j => L ⟨i, rfl⟩ ⟨j, rfl⟩) *
        (obsL (maskY fun _ : Fin nx => true) (Matrix.of fun i j => L ⟨i, rfl⟩ ⟨j, rfl⟩))ᵀ = L * Lᵀ := by
      ext i j
      rw [Matrix.mul_apply, Matrix.mul_apply]
      exact Fintype.sum_equiv ⟨fun i => ⟨i, rfl⟩, Subtype.val, fun _ => rfl, fun _ => rfl⟩ _ _ fun _ => rfl
    rw [e] at h0
    have := congrArg Matrix.det l2
    rw [Matrix.det_mul, h0, mul_zero, Matrix.det_one] at this
    exact zero_ne_one this

/-- Non-vacuity for C67 (Taylor): a skipped prediction and a correlated quadratic potential. -/
example (qr : QR) (svd : SVD) (D : Dummies 2) (m μ : Fin 2 → ℝ) (L : Matrix (Fin 2) (Fin 2) ℝ) (l : ℝ) :
    ∃ (cb : TCallbacks 2 0 Unit) (s : LState 2 Unit), IsState s m (L * Lᵀ) l ∧
      (∃ p, cb.getDynamics s () = (p, fun _ => none, fun _ => none)) ∧
      ∀ pr, pr.mean ≠ none → ∃ g, LinearisedTo qr svd cb.rtol cb.ignoreNanDims (cb.getObservation pr ()) g := by
  have hw : WellConditioned (1 / 10) (!![2, 1; 1, 2] : Matrix (Fin 2) (Fin 2) ℝ) := by
    refine ⟨?_, 1, 3, one_pos, by norm_num, fun x => ?_⟩
    · ext i j; fin_cases i <;> fin_cases j <;> rfl
    · simp [dotProduct, mulVec, Fin.sum_univ_two]
      constructor <;> nlinarith [sq_nonneg (x 0 + x 1), sq_nonneg (x 0 - x 1)]
  obtain ⟨p, hp, hAD⟩ := exists_potential (n := 2)
    (quadForm (0 : Matrix (Fin 2) (Fin 0) ℝ) μ !![2, 1; 1, 2] 0 0)
  obtain ⟨pd, -, -⟩ := exists_gaussian_condDensity (nx := 2) (ny := 2) 0 0 1
  refine ⟨{ getInit := fun _ => (p, fun _ => some 7)
            getDynamics := fun _ _ => (pd, fun _ => none, fun _ => none)
            getObservation := fun s _ => .potential p fun i => some ((s.mean.getD 0) i)
            rtol := 1 / 10
            ignoreNanDims := false }, dummyElem D (some m) L (some l) () none, ⟨rfl, rfl, rfl⟩, ⟨pd, rfl⟩,
    fun pr _ => linearisedTo_of_smooth qr svd _ (by norm_num) _ p hAD _ ?_ ?_⟩
  · rw [hp]
    exact (contDiff_quadForm _ _ _ _).comp (contDiff_const.prodMk contDiff_id)
  · rw [hp]
    convert hw using 1
    ext i j
    rw [Matrix.of_apply, quadForm_hess hw.1, neg_neg]

/-- Non-vacuity for C67 (moments): a quadratic conditional mean, linearised at the mean of the state. -/
example (D : Dummies 1) (m : Fin 1 → ℝ) (l : ℝ) : ∃ (cb : MCallbacks 1 1 Unit) (s : LState 1 Unit),
    IsState s m (1 * 1ᵀ) l ∧ (∀ s, (cb.getDynamics s ()).2 = s.mean.getD 0) ∧
      ∀ pr, ((((cb.getObservation pr ()).1 (cb.getObservation pr ()).2.1).2 *
        (((cb.getObservation pr ()).1 (cb.getObservation pr ()).2.1).2)ᵀ).submatrix Subtype.val Subtype.val :
          Matrix (Obs (cb.getObservation pr ()).2.2) _ ℝ).det ≠ 0 := by
  refine ⟨{ getInit := fun _ => (m, 1)
            getDynamics := fun s _ => (fun x => (fun i => x i ^ 2, 1), s.mean.getD 0)
            getObservation := fun s _ => (fun x => (fun i => Real.exp (x i), 1), s.mean.getD 0, fun _ => some 3) },
    dummyElem D (some m) 1 (some l) () none, ⟨rfl, rfl, rfl⟩, fun _ => rfl, fun pr => ?_⟩
  rw [Matrix.transpose_one, Matrix.one_mul, Matrix.submatrix_one _ Subtype.val_injective, Matrix.det_one]
  exact one_ne_zero

end

end Cuthbert.Linearize
