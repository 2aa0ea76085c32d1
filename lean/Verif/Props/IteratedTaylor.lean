import Verif.Props.ExtendedKalman
import Verif.Props.SingularPotential

/-!
# Iterating the Taylor smoother (C103)
-/

namespace Cuthbert.Linearize
open MeasureTheory ProbabilityTheory Matrix Cuthbert Cuthbert.Spec Kalman
open scoped ENNReal

noncomputable section

set_option linter.unusedSectionVars false

variable {nx ny n : ℕ} {Inp K : Type*}

/-! ## Specification -/

/-- One step of a model with additive Gaussian noise in the transition: its mean function, the covariance of the noise,
and the log likelihood of the observation as a function of the new state. -/
structure PStep (nx : ℕ) where
  f : (Fin nx → ℝ) → Fin nx → ℝ
  Q : Matrix (Fin nx) (Fin nx) ℝ
  g : (Fin nx → ℝ) → ℝ

/-- Log density of the states after the first and of the observations. -/
def pLogDensityFrom : List (PStep nx) → (ℕ → Fin nx → ℝ) → ℝ
  | [], _ => 0
  | p :: ps, x => gaussLogDensity (p.f (x 0)) p.Q (x 1) + p.g (x 1) + pLogDensityFrom ps fun k => x (k + 1)

/-- Log posterior density of the trajectory, up to a constant. -/
def pLogDensity (m0 : Fin nx → ℝ) (P0 : Matrix (Fin nx) (Fin nx) ℝ) (ps : List (PStep nx)) (x : ℕ → Fin nx → ℝ) : ℝ :=
  gaussLogDensity m0 P0 (x 0) + pLogDensityFrom ps x

/-- The second derivatives of `g` at `x` form a matrix with absolute value `B`, well-conditioned and nonsingular on the
components that appear in it. The slope of `g` along the other components is zero. -/
structure HasCurvature (rtol : ℝ) (g : (Fin nx → ℝ) → ℝ) (x : Fin nx → ℝ) (B : Matrix (Fin nx) (Fin nx) ℝ) : Prop where
  smooth : ContDiff ℝ 2 g
  hess : ∃ Λ : Matrix (Fin nx) (Fin nx) ℝ, Λ.IsSymm ∧ IsAbs Λ B ∧ ∀ i j,
    lineDeriv ℝ (fun z => lineDeriv ℝ g z (Pi.single i 1)) x (Pi.single j 1) = -Λ i j
  cond : SemiConditioned rtol B
  nondeg : ∀ v : Fin nx → ℝ, B *ᵥ v = 0 → ∀ i, v i ≠ 0 → ZeroDim B i
  flat : ∀ i, ZeroDim B i → lineDeriv ℝ g x (Pi.single i 1) = 0

/-- The observation callback returns the log likelihood `g` as a log potential with curvature, to be linearised at
`x`. -/
def ObservesPotential (cb : TCallbacks nx ny Inp) (u : Inp) (g : (Fin nx → ℝ) → ℝ) (x : Fin nx → ℝ) : Prop :=
  ∃ p B, (∀ s, cb.getObservation s u = .potential p fun i => some (x i)) ∧ p.AD ∧
    (∃ k, ∀ x, p.value x = g x + k) ∧ HasCurvature cb.rtol g x B ∧ (cb.ignoreNanDims = true ∨ ∀ i, ¬ ZeroDim B i)

/-- The observation callback returns a conditional log density with additive Gaussian noise, to be linearised at `x`,
and an observation that has log likelihood `g`. -/
def ObservesAdditive (cb : TCallbacks nx ny Inp) (u : Inp) (g : (Fin nx → ℝ) → ℝ) (x : Fin nx → ℝ) : Prop :=
  ∃ p h R y, (∀ s, cb.getObservation s u = .density p (fun i => some (x i)) y) ∧
    IsAdditiveObservation cb.rtol p y h R ∧ (cb.ignoreNanDims = true ∨ ∀ i, y i ≠ none) ∧
    ∀ x, g x = gaussLogDensity (obsV y (h x)) (R.submatrix Subtype.val Subtype.val) (obsY y)

/-- The initial state and the transitions are those of the model. The transitions are linearised at the first of the
points `pts`, whatever the state. -/
structure Relinearised (cb : TCallbacks nx ny Inp) (u₀ : Inp) (us : List Inp) (m0 : Fin nx → ℝ)
    (P0 : Matrix (Fin nx) (Fin nx) ℝ) (nl : Inp → PStep nx) (pts : Inp → (Fin nx → ℝ) × (Fin nx → ℝ)) : Prop where
  init : ∃ (p : Potential nx) (x : Fin nx → ℝ), cb.getInit u₀ = (p, fun i => some (x i)) ∧ IsGaussian cb.rtol p m0 P0
  dynamics : ∀ u ∈ us, ∃ (p : CondDensity nx nx) (xc : Fin nx → ℝ), (∀ s, cb.getDynamics s u =
      (p, (fun i => some ((pts u).1 i)), fun i => some (xc i))) ∧
    IsAdditiveTransition cb.rtol p (nl u).f (nl u).Q

/-! ## Parameters with the slopes of the log likelihood -/

/-- The linearised observation has at `x` the slopes of `g`. -/
structure Tangent (g : (Fin nx → ℝ) → ℝ) (x : Fin nx → ℝ) (o : ObsParams nx n) : Prop where
  det : (obsL o.y o.cholR * (obsL o.y o.cholR)ᵀ).det ≠ 0
  slope : ∀ v, HasDerivAt (fun s : ℝ => g (x + s • v)) (slope (obsL o.y o.cholR * (obsL o.y o.cholR)ᵀ)
    (obsY o.y - (obsH o.y o.H *ᵥ x + obsV o.y o.d)) (-(obsH o.y o.H *ᵥ v))) 0

/-- The filter uses the observation parameters `o`. -/
inductive Obtains (qr : QR) (svd : SVD) (cb : TCallbacks nx ny Inp) (u : Inp) : {n : ℕ} → ObsParams nx n → Prop
  | density (p x y) (o : ObsParams nx ny) (h : ∀ s, cb.getObservation s u = .density p x y)
      (ho : processDensity qr svd cb.rtol cb.ignoreNanDims p x y = some o) : Obtains qr svd cb u o
  | potential (p x) (o : ObsParams nx nx) (h : ∀ s, cb.getObservation s u = .potential p x)
      (ho : processPotential qr svd cb.rtol cb.ignoreNanDims p x = some o) : Obtains qr svd cb u o

theorem Obtains.combine {qr : QR} {svd : SVD} {cb : TCallbacks nx ny Inp} {u : Inp} {o : ObsParams nx n}
    (h : Obtains qr svd cb u o) (D : Dummies nx) (s : LState nx Inp)
    (dyn : Matrix (Fin nx) (Fin nx) ℝ × (Fin nx → ℝ) × Matrix (Fin nx) (Fin nx) ℝ)
    (hd : tDynamics qr svd cb s u = some dyn) :
    tCombineNonAssoc qr svd D cb s (prepareNonAssoc D u) =
      updateState qr D s (predictState qr D s u (some dyn)) u (some o) := by
  have hmi : (prepareNonAssoc D u : LState nx Inp).modelInputs = u := rfl
  cases h with
  | density p x y o h ho =>
    unfold tCombineNonAssoc
    simp only [hmi, hd, h, ho]
  | potential p x o h ho =>
    unfold tCombineNonAssoc
    simp only [hmi, hd, h, ho]

theorem Obtains.elem {qr : QR} {svd : SVD} {cb : TCallbacks nx ny Inp} {u : Inp} {o : ObsParams nx n}
    (h : Obtains qr svd cb u o) (D : Dummies nx)
    (dyn : Matrix (Fin nx) (Fin nx) ℝ × (Fin nx → ℝ) × Matrix (Fin nx) (Fin nx) ℝ)
    (hd : tDynamics qr svd cb (dummyState D u) u = some dyn) :
    (tPrepareAssoc qr svd D cb u).elem = filterParams qr dyn.1 dyn.2.1 dyn.2.2 o.H o.d o.cholR o.y := by
  cases h with
  | density p x y o h ho =>
    unfold tPrepareAssoc
    simp only [hd, h, ho, Option.bind_some]
  | potential p x o h ho =>
    unfold tPrepareAssoc
    simp only [hd, h, ho, Option.bind_some]

theorem lineDeriv_add_const (g : (Fin nx → ℝ) → ℝ) (k : ℝ) (x v : Fin nx → ℝ) :
    lineDeriv ℝ (fun x => g x + k) x v = lineDeriv ℝ g x v := by
  simp only [lineDeriv, deriv_add_const]

/-- On the components that appear, the covariance is the inverse of the precision. -/
theorem restrict_inverse {B C : Matrix (Fin nx) (Fin nx) ℝ} (c1 : IsPinv B C)
    (hdetB : ∀ v : Fin nx → ℝ, B *ᵥ v = 0 → ∀ i, v i ≠ 0 → ZeroDim B i) :
    (C.submatrix Subtype.val Subtype.val * B.submatrix Subtype.val Subtype.val :
      Matrix (Obs (present B)) (Obs (present B)) ℝ) = 1 := by
  classical
  obtain ⟨R, hR⟩ : ∃ R : Matrix (Obs (present B)) (Obs (present B)) ℝ, R = C.submatrix Subtype.val Subtype.val :=
    ⟨_, rfl⟩
  obtain ⟨Q, hQ⟩ : ∃ Q : Matrix (Obs (present B)) (Obs (present B)) ℝ, Q = B.submatrix Subtype.val Subtype.val :=
    ⟨_, rfl⟩
  rw [← hR, ← hQ]
  have hQv : ∀ z : Fin nx → ℝ, Q *ᵥ (fun i => z i.1) = fun i => (B *ᵥ z) i.1 := fun z => by
    funext i
    rw [Matrix.mulVec, dotProduct, Matrix.mulVec, dotProduct, hQ]
    exact sum_obs (present B) (fun j => B i.1 j * z j) fun j hj => by
      rw [((present_none B j).mp hj).1 i.1, zero_mul]
  have hRv : ∀ z : Fin nx → ℝ, (∀ i, ZeroDim B i → z i = 0) → R *ᵥ (fun i => z i.1) = fun i => (C *ᵥ z) i.1 :=
    fun z hz => by
      funext i
      rw [Matrix.mulVec, dotProduct, Matrix.mulVec, dotProduct, hR]
      exact sum_obs (present B) (fun j => C i.1 j * z j) fun j hj => by rw [hz j ((present_none B j).mp hj), mul_zero]
  have hBz : ∀ z : Fin nx → ℝ, ∀ i, ZeroDim B i → (B *ᵥ z) i = 0 := fun z i hi => by
    rw [Matrix.mulVec, dotProduct]
    exact Finset.sum_eq_zero fun j _ => by rw [hi.2, zero_mul]
  have hext : ∀ u : Obs (present B) → ℝ, ∃ v : Fin nx → ℝ, u = fun i : Obs (present B) => v i.1 := fun u =>
    ⟨fun i => if h : (present B i).isNone = false then u ⟨i, h⟩ else 0, by
      funext i
      simp only []
      rw [dif_pos i.2]⟩
  have hinj : Function.Injective Q.mulVec := by
    rw [← Matrix.coe_mulVecLin, ← LinearMap.ker_eq_bot, LinearMap.ker_eq_bot']
    intro u hu
    rw [Matrix.mulVecLin_apply] at hu
    obtain ⟨v, huv⟩ := hext u
    have hBv : B *ᵥ v = 0 := by
      funext i
      by_cases hi : ZeroDim B i
      · exact hBz v i hi
      · have h1 : present B i ≠ none := fun h => hi ((present_none B i).mp h)
        have := congrFun (hQv v) ⟨i, isNone_false.mpr h1⟩
        rw [← huv, hu] at this
        exact this.symm
    funext i
    by_contra h
    have h2 := hdetB v hBv i.1 (by rw [huv] at h; exact h)
    exact isNone_false.mp i.2 ((present_none B i.1).mpr h2)
  refine Matrix.mulVec_injective ?_
  funext u
  rw [← Matrix.mulVec_mulVec, Matrix.one_mulVec]
  refine hinj ?_
  obtain ⟨v, huv⟩ := hext u
  change Q *ᵥ (R *ᵥ (Q *ᵥ u)) = Q *ᵥ u
  rw [huv, hQv, hRv _ (hBz v), hQv]
  have := c1.aca
  rw [Matrix.mulVec_mulVec, Matrix.mulVec_mulVec, this]

theorem hasDerivAt_line {g : (Fin nx → ℝ) → ℝ} {x : Fin nx → ℝ} (hg : DifferentiableAt ℝ g x) (v : Fin nx → ℝ) :
    HasDerivAt (fun s : ℝ => g (x + s • v)) (∑ i, v i * lineDeriv ℝ g x (Pi.single i 1)) 0 := by
  have h0 : HasFDerivAt g (fderiv ℝ g x) (x + (0 : ℝ) • v) := by
    rw [zero_smul, add_zero]
    exact hg.hasFDerivAt
  have h1 := h0.comp_hasDerivAt 0 (line_hasDerivAt x v)
  have h2 : fderiv ℝ g x v = ∑ i, v i * lineDeriv ℝ g x (Pi.single i 1) := by
    have h3 : v = ∑ i, v i • (Pi.single i 1 : Fin nx → ℝ) := by
      funext j
      simp [Finset.sum_apply, Pi.single_apply]
    conv_lhs => rw [h3]
    rw [map_sum]
    refine Finset.sum_congr rfl fun i _ => ?_
    rw [map_smul, smul_eq_mul, hg.lineDeriv_eq_fderiv]
  rw [← h2]
  exact h1

theorem ObservesPotential.tangent {cb : TCallbacks nx ny Inp} {u : Inp} {g : (Fin nx → ℝ) → ℝ} {x : Fin nx → ℝ}
    (h : ObservesPotential cb u g x) (qr : QR) (svd : SVD) (hr : 0 ≤ cb.rtol) :
    ∃ o : ObsParams nx nx, Obtains qr svd cb u o ∧ Tangent g x o := by
  obtain ⟨p, B, hobs, hAD, ⟨k, hk⟩, ⟨hsm, ⟨Λ, hΛ, hΛB, hhess⟩, hB, hnd, hflat⟩, hign⟩ := h
  have hval : p.value = fun x => g x + k := funext hk
  have hcd : ContDiff ℝ 2 p.value := by
    rw [hval]
    exact hsm.add contDiff_const
  obtain ⟨G, hG⟩ : ∃ G : Fin nx → ℝ, G = fun i => lineDeriv ℝ g x (Pi.single i 1) := ⟨_, rfl⟩
  obtain ⟨M, C, c1, c2, c3, c4⟩ := processPotential_abs qr svd cb.rtol hr cb.ignoreNanDims p x G Λ B hΛ hB hΛB
    (fun i => by rw [hAD.grad x hcd, hval, lineDeriv_add_const, hG])
    (fun i j => by
      rw [hAD.hess x hcd, hval]
      simp only [lineDeriv_add_const]
      rw [hhess]) hign
  refine ⟨_, .potential p _ _ hobs c3, ?_, fun v => ?_⟩
  · change (obsL (present B) M * (obsL (present B) M)ᵀ).det ≠ 0
    rw [c4]
    intro h0
    have := congrArg Matrix.det (restrict_inverse c1 hnd)
    rw [Matrix.det_mul, h0, zero_mul, Matrix.det_one] at this
    exact zero_ne_one this
  · have h1 := hasDerivAt_line (hsm.differentiable (by norm_num) x) v
    have hres : obsY (present B) - (obsH (present B) (-1 : Matrix (Fin nx) (Fin nx) ℝ) *ᵥ x +
        obsV (present B) (x + C *ᵥ G)) = -fun i : Obs (present B) => (C *ᵥ G) i.1 := by
      funext i
      rw [Pi.sub_apply, present_zero, Pi.add_apply, obsH, Matrix.mulVec, dotProduct]
      simp [Matrix.one_apply, obsV]
    have hdir : -(obsH (present B) (-1 : Matrix (Fin nx) (Fin nx) ℝ) *ᵥ v) = fun i : Obs (present B) => v i.1 := by
      funext i
      rw [Pi.neg_apply, obsH, Matrix.mulVec, dotProduct]
      simp [Matrix.one_apply]
    have hRG : (fun i : Obs (present B) => (C *ᵥ G) i.1) =
        (C.submatrix Subtype.val Subtype.val : Matrix (Obs (present B)) (Obs (present B)) ℝ) *ᵥ fun i => G i.1 := by
      funext i
      rw [Matrix.mulVec, dotProduct, Matrix.mulVec, dotProduct]
      exact (sum_obs (present B) (fun j => C i.1 j * G j) fun j hj => by
        rw [hG]
        simp only []
        rw [hflat j ((present_none B j).mp hj), mul_zero]).symm
    have hinv : (C.submatrix Subtype.val Subtype.val : Matrix (Obs (present B)) (Obs (present B)) ℝ)⁻¹ *ᵥ
        (fun i : Obs (present B) => (C *ᵥ G) i.1) = fun i => G i.1 := by
      rw [hRG, Matrix.mulVec_mulVec, Matrix.nonsing_inv_mul, Matrix.one_mulVec]
      rw [isUnit_iff_ne_zero]
      intro h0
      have := congrArg Matrix.det (restrict_inverse c1 hnd)
      rw [Matrix.det_mul, h0, zero_mul, Matrix.det_one] at this
      exact zero_ne_one this
    have hsymm : ((C.submatrix Subtype.val Subtype.val : Matrix (Obs (present B)) (Obs (present B)) ℝ)⁻¹).IsSymm := by
      rw [Matrix.IsSymm, Matrix.transpose_nonsing_inv, Matrix.transpose_submatrix, c2]
    convert h1 using 1
    change slope (obsL (present B) M * (obsL (present B) M)ᵀ) (obsY (present B) - (obsH (present B)
      (-1 : Matrix (Fin nx) (Fin nx) ℝ) *ᵥ x + obsV (present B) (x + C *ᵥ G))) (-(obsH (present B)
        (-1 : Matrix (Fin nx) (Fin nx) ℝ) *ᵥ v)) = _
    rw [c4, hres, hdir, slope, Matrix.mulVec_neg, hinv, Matrix.dotProduct_mulVec _ _ fun i : Obs (present B) => v i.1,
      ← Matrix.mulVec_transpose, hsymm, Matrix.mulVec_neg, hinv, dotProduct_neg, neg_dotProduct,
      dotProduct_comm (fun i : Obs (present B) => G i.1)]
    have : (fun i : Obs (present B) => v i.1) ⬝ᵥ (fun i => G i.1) = ∑ i, v i * G i :=
      sum_obs (present B) (fun j => v j * G j) fun j hj => by
        rw [hG]
        simp only []
        rw [hflat j ((present_none B j).mp hj), mul_zero]
    rw [this, hG]
    ring

theorem ObservesAdditive.tangent {cb : TCallbacks nx ny Inp} {u : Inp} {g : (Fin nx → ℝ) → ℝ} {x : Fin nx → ℝ}
    (h : ObservesAdditive cb u g x) (qr : QR) (svd : SVD) (hr : 0 ≤ cb.rtol) :
    ∃ o : ObsParams nx ny, Obtains qr svd cb u o ∧ Tangent g x o := by
  obtain ⟨p, h, R, y, hobs, hp, hign, hg⟩ := h
  obtain ⟨H, d, C, c1, c2, c3, c4⟩ := hp.process qr svd hr cb.ignoreNanDims x hign
  refine ⟨_, .density p _ y _ hobs c1, ?_, fun v => ?_⟩
  · rw [c4]
    exact hp.cond.det_ne_zero
  · have o1 : HasDerivAt (fun s : ℝ => obsY y - obsV y (h (x + s • v))) (-obsV y (jacfwd h x *ᵥ v)) 0 := by
      have o0 := comp_line_hasDerivAt h x v (hp.smooth.differentiable (by norm_num) x)
      refine HasDerivAt.const_sub _ (hasDerivAt_pi.mpr fun i => ?_)
      exact hasDerivAt_pi.mp o0 i.1
    have o2 := gaussLogDensity_hasDerivAt (R.submatrix Subtype.val Subtype.val) _ _ o1
    simp only [zero_smul, add_zero] at o2
    have e1 : obsH y H *ᵥ x + obsV y d = obsV y (h x) := by
      rw [c2, c3]
      funext i
      change (jacfwd h x *ᵥ x) i.1 + (h x - jacfwd h x *ᵥ x) i.1 = h x i.1
      rw [Pi.sub_apply]
      ring
    have e2 : obsH y H *ᵥ v = obsV y (jacfwd h x *ᵥ v) := by rw [c2]; rfl
    change HasDerivAt _ (slope (obsL y C * (obsL y C)ᵀ) (obsY y - (obsH y H *ᵥ x + obsV y d)) (-(obsH y H *ᵥ v))) 0
    rw [c4, e1, e2]
    refine o2.congr_of_eventuallyEq (Filter.Eventually.of_forall fun s => ?_)
    simp only []
    rw [hg, gaussLogDensity_sub (obsV _ _)]

/-! ## Slopes along a trajectory -/

/-- The step has the linearisation of `p` at `a` and `b`. -/
def Matched (p : PStep nx) (a b : Fin nx → ℝ) (st : Step nx n) : Prop :=
  st.F = jacfwd p.f a ∧ st.c = p.f a - jacfwd p.f a *ᵥ a ∧ st.cholQ * st.cholQᵀ = p.Q ∧ DifferentiableAt ℝ p.f a ∧
    Tangent p.g b ⟨st.H, st.d, st.cholR, st.y⟩

/-- All steps, along the trajectory. -/
def MatchedAlong : List (PStep nx) → List (Step nx n) → (ℕ → Fin nx → ℝ) → Prop
  | [], [], _ => True
  | p :: ps, st :: sts, x => Matched p (x 0) (x 1) st ∧ MatchedAlong ps sts fun k => x (k + 1)
  | _, _, _ => False

theorem pLogDensityFrom_slope : ∀ (ps : List (PStep nx)) (sts : List (Step nx n)) (x h : ℕ → Fin nx → ℝ),
    MatchedAlong ps sts x →
    ∃ A D C : ℝ, HasDerivAt (fun s : ℝ => pLogDensityFrom ps (x + s • h)) D 0 ∧
      ∀ s : ℝ, logDensityFrom sts (x + s • h) = A + D * s + C * s ^ 2
  | [], [], x, h, _ => ⟨0, 0, 0, by
      simpa only [pLogDensityFrom] using hasDerivAt_const (0 : ℝ) (0 : ℝ), fun s => by simp [logDensityFrom]⟩
  | [], _ :: _, _, _, hm => hm.elim
  | _ :: _, [], _, _, hm => hm.elim
  | p :: ps, st :: sts, x, h, ⟨⟨hF, hc, hQ, hf, hg⟩, hm⟩ => by
    obtain ⟨A, D, C, h1, h2⟩ := pLogDensityFrom_slope ps sts (fun k => x (k + 1)) (fun k => h (k + 1)) hm
    have t1 : HasDerivAt (fun s : ℝ => x 1 + s • h 1 - p.f (x 0 + s • h 0)) (h 1 - jacfwd p.f (x 0) *ᵥ h 0) 0 :=
      (line_hasDerivAt (x 1) (h 1)).sub (comp_line_hasDerivAt p.f (x 0) (h 0) hf)
    have t2 := gaussLogDensity_hasDerivAt p.Q _ _ t1
    simp only [zero_smul, add_zero] at t2
    have o2 := hg.slope (h 1)
    obtain ⟨r, hr⟩ : ∃ r, r = obsY st.y - (obsH st.y st.H *ᵥ x 1 + obsV st.y st.d) := ⟨_, rfl⟩
    obtain ⟨w, hw⟩ : ∃ w, w = -(obsH st.y st.H *ᵥ h 1) := ⟨_, rfl⟩
    simp only [] at o2
    rw [← hr, ← hw] at o2
    have hRe : obsL st.y st.cholR * (obsL st.y st.cholR)ᵀ = st.R := rfl
    rw [hRe] at o2
    refine ⟨gaussLogDensity 0 p.Q (x 1 - p.f (x 0)) + gaussLogDensity 0 st.R r + A,
      slope p.Q (x 1 - p.f (x 0)) (h 1 - jacfwd p.f (x 0) *ᵥ h 0) + slope st.R r w + D,
      -(1 / 2) * ((h 1 - jacfwd p.f (x 0) *ᵥ h 0) ⬝ᵥ p.Q⁻¹ *ᵥ (h 1 - jacfwd p.f (x 0) *ᵥ h 0)) +
        -(1 / 2) * (w ⬝ᵥ st.R⁻¹ *ᵥ w) + C, ?_, ?_⟩
    · have h3 := (t2.add o2).add h1
      refine h3.congr_of_eventuallyEq (Filter.Eventually.of_forall fun s => ?_)
      simp only [pLogDensityFrom, Pi.add_apply, Pi.smul_apply]
      rw [gaussLogDensity_sub (p.f _)]
      rfl
    · intro s
      have e1 : (x + s • h) 1 - (st.F *ᵥ (x + s • h) 0 + st.c) =
          (x 1 - p.f (x 0)) + s • (h 1 - jacfwd p.f (x 0) *ᵥ h 0) := by
        simp only [Pi.add_apply, Pi.smul_apply, hF, hc, Matrix.mulVec_add, Matrix.mulVec_smul, smul_sub]
        abel
      have e2 : obsY st.y - (obsH st.y st.H *ᵥ (x + s • h) 1 + obsV st.y st.d) = r + s • w := by
        simp only [Pi.add_apply, Pi.smul_apply, hr, hw, Matrix.mulVec_add, Matrix.mulVec_smul, smul_neg]
        abel
      have h5 : logDensityFrom (st :: sts) (x + s • h) =
          gaussLogDensity (st.F *ᵥ (x + s • h) 0 + st.c) (st.cholQ * st.cholQᵀ) ((x + s • h) 1) +
          gaussLogDensity (obsH st.y st.H *ᵥ (x + s • h) 1 + obsV st.y st.d) st.R (obsY st.y) +
          logDensityFrom sts ((fun k => x (k + 1)) + s • fun k => h (k + 1)) := rfl
      rw [h5, hQ, gaussLogDensity_sub _ p.Q, e1, gaussLogDensity_sub _ st.R, e2, gaussLogDensity_line,
        gaussLogDensity_line, h2]
      ring

/-! ## Filtering and smoothing along a trajectory -/

theorem taylor_smoother_tangent (qr : QR) (svd : SVD) (D : Dummies nx) (cb : TCallbacks nx ny Inp) (hr : 0 ≤ cb.rtol)
    (rng rng' : Prng K) (u₀ : Inp) (us : List Inp) (hus : us ≠ []) (m0 : Fin nx → ℝ) (P0 : Matrix (Fin nx) (Fin nx) ℝ)
    (nl : Inp → PStep nx) (pts : Inp → (Fin nx → ℝ) × (Fin nx → ℝ)) (h : Relinearised cb u₀ us m0 P0 nl pts)
    (ho : ∀ u ∈ us, ∃ o : ObsParams nx n, Obtains qr svd cb u o ∧ Tangent (nl u).g (pts u).2 o)
    (associative parallel parallel' : Bool)
    (hpar : associative = true ∨ parallel = false) (key key' : Option K) (opts : SmootherOpts nx Inp)
    (x : ℕ → Fin nx → ℝ) (hx : ∀ (t : ℕ) u, us[t]? = some u → pts u = (x t, x (t + 1))) :
    ∃ fs states m, (filter rng (buildTaylorFilter qr svd D cb associative) (u₀ :: us) parallel key).result = .ok fs ∧
      (smoother rng' LState.modelInputs (fun u => .ok (opts.dummy u))
        (buildTaylorSmoother qr svd cb.rtol cb.ignoreNanDims cb.getDynamics opts) fs (some us) parallel' key').result =
          .ok states ∧
      (∀ t ≤ us.length, ∃ s, states[t]? = some s ∧ s.mean = some (m t)) ∧
      (∀ v, LineDifferentiableAt ℝ (pLogDensity m0 P0 (us.map nl)) x v) ∧
      0 ≤ lineDeriv ℝ (pLogDensity m0 P0 (us.map nl)) x (m - x) ∧
      (lineDeriv ℝ (pLogDensity m0 P0 (us.map nl)) x (m - x) = 0 → ∀ t ≤ us.length, m t = x t) ∧
      ((∀ t ≤ us.length, m t = x t) ↔ ∀ v, lineDeriv ℝ (pLogDensity m0 P0 (us.map nl)) x v = 0) := by
  obtain ⟨p0, x0, hp0, hgau⟩ := h.init
  obtain ⟨L0, hL0, hlow, hLP⟩ := hgau.linearize qr svd hr cb u₀ x0 rfl hp0
  have hstep : ∀ u, ∃ st : Step nx n, u ∈ us →
      (∀ s, tDynamics qr svd cb s u = some (st.F, st.c, st.cholQ)) ∧
      (∀ s k, (buildTaylorSmoother (K := K) qr svd cb.rtol cb.ignoreNanDims cb.getDynamics opts).smootherPrepare s u k =
        smootherStateOf qr opts s u (some (st.F, st.c, st.cholQ))) ∧
      Obtains qr svd cb u (⟨st.H, st.d, st.cholR, st.y⟩ : ObsParams nx n) ∧
      Matched (nl u) (pts u).1 (pts u).2 st := by
    intro u
    by_cases hu : u ∈ us
    · obtain ⟨p, xc, hp, hadd⟩ := h.dynamics u hu
      obtain ⟨o, o1, o2⟩ := ho u hu
      obtain ⟨L, -, hL, hlin⟩ := hadd.linearize qr svd hr cb.ignoreNanDims (pts u).1 xc
      refine ⟨⟨jacfwd (nl u).f (pts u).1, (nl u).f (pts u).1 - jacfwd (nl u).f (pts u).1 *ᵥ (pts u).1, L, o.H, o.d,
        o.cholR, o.y⟩, fun _ => ⟨fun s => ?_, fun s k => ?_, o1, rfl, rfl, hL,
          hadd.smooth.differentiable (by norm_num) _, o2⟩⟩
      · obtain ⟨L', hL', hd⟩ := hadd.tDynamics qr svd hr (pts u).1 xc (hp s)
        rw [hd]
        by_cases hs : skipPredict (fun i => some (xc i)) fun i => some ((pts u).1 i)
        · have : IsEmpty (Fin nx) := ⟨fun i => by have := hs.1 i; cases this⟩
          rw [Subsingleton.elim L' L]
        · unfold Linearize.tDynamics at hd
          rw [hp s] at hd
          simp only [] at hd
          rw [hlin] at hd
          rw [if_neg hs, finite_some _ (jacfwd (nl u).f (pts u).1) fun _ _ => rfl,
            finiteVec_some _ ((nl u).f (pts u).1 - jacfwd (nl u).f (pts u).1 *ᵥ (pts u).1) fun _ => rfl,
            finite_some _ L fun _ _ => rfl] at hd
          exact hd.symm
      · simp only [buildTaylorSmoother, hp s]
        rw [hlin]
        simp only []
        rw [finite_some _ (jacfwd (nl u).f (pts u).1) fun _ _ => rfl,
          finiteVec_some _ ((nl u).f (pts u).1 - jacfwd (nl u).f (pts u).1 *ᵥ (pts u).1) fun _ => rfl,
          finite_some _ L fun _ _ => rfl]
        rfl
    · exact ⟨⟨0, 0, 0, 0, 0, 0, fun _ => none⟩, fun h => absurd h hu⟩
  choose st hst using hstep
  obtain ⟨lin, hlin⟩ : ∃ lin : Callbacks nx n Inp, lin =
    { getInit := fun _ => (m0, L0)
      getDynamics := fun u => ((st u).F, (st u).c, (st u).cholQ)
      getObservation := fun u => ((st u).H, (st u).d, (st u).cholR, (st u).y) } := ⟨_, rfl⟩
  have hso : ∀ u, stepOf lin u = st u := fun u => by rw [hlin]; rfl
  have hin : lin.getInit u₀ = (m0, L0) := by rw [hlin]
  have hdy : ∀ u, lin.getDynamics u = ((st u).F, (st u).c, (st u).cholQ) := fun u => by rw [hlin]
  have hR : ∀ u ∈ us, (stepOf lin u).R.det ≠ 0 := fun u hu => by
    rw [hso]
    exact (hst u hu).2.2.2.2.2.2.2.det
  have hQ : ∀ u ∈ us, ((stepOf lin u).cholQ * ((stepOf lin u).cholQ)ᵀ).det ≠ 0 := fun u hu => by
    obtain ⟨p, xc, hp, hadd⟩ := h.dynamics u hu
    rw [hso, (hst u hu).2.2.2.2.2.1]
    exact hadd.cond.det_ne_zero
  obtain ⟨fs, fs', p', h1, h2, h3, hlen⟩ : ∃ fs fs' p',
      (filter rng (buildTaylorFilter qr svd D cb associative) (u₀ :: us) parallel key).result = .ok fs ∧
      (filter rng (buildFilter qr lin) (u₀ :: us) p' key).result = .ok fs' ∧
      SameMoments fs fs' ∧ us.length + 1 = fs.length := by
    cases associative with
    | true =>
      obtain ⟨fs', h2, hl, -⟩ := kalman_run qr rng lin u₀ us parallel key hR
      have h3 := h2
      have heq := taylor_associative_eq qr svd D cb lin rng u₀ us parallel key (by rw [hL0, hin]) fun u hu => by
        rw [(hst u hu).2.2.1.elem D _ ((hst u hu).1 _), hlin]; rfl
      rw [← heq] at h3
      cases hr : (filter rng (buildTaylorFilter qr svd D cb true) (u₀ :: us) parallel key).result with
      | error e => rw [hr] at h3; cases h3
      | ok fs =>
        rw [hr] at h3
        simp only [Except.map, Except.ok.injEq] at h3
        refine ⟨fs, fs', parallel, rfl, h2, ?_, ?_⟩
        · rw [SameMoments, ← h3, List.map_map]
          rfl
        · rw [← hl, ← h3, List.length_map]
    | false =>
      obtain rfl : parallel = false := hpar.resolve_left (by simp)
      obtain ⟨fs, hfs, hrun⟩ := filter_sequential_is_online_run rng (buildTaylorFilter (K := K) qr svd D cb false)
        (u₀ :: us) key (by simp)
      obtain ⟨fs', hfs', hl', hk⟩ := kalman_run qr rng lin u₀ us false key hR
      have hl : fs.length = us.length + 1 := by simpa using hrun.length_eq
      have main : ∀ t ≤ us.length, ∃ s, fs[t]? = some s ∧ Holds s (kfAt lin u₀ us t) := by
        intro t
        induction t with
        | zero =>
          intro _
          have hini : (buildTaylorFilter (K := K) qr svd D cb false).initPrepare u₀
              (keyAt rng key (u₀ :: us).length 0) = dummyElem D (some m0) L0 (some 0) u₀ (some D.vec) := by
            change tInitNonAssoc qr svd D cb u₀ = _
            rw [tInitNonAssoc, hL0]
          refine ⟨_, (hrun.first u₀ rfl).trans (congrArg some hini), ?_⟩
          rw [kfAt, List.take_zero, List.map_nil, List.foldl_nil, hin]
          exact ⟨rfl, ⟨L0, rfl, rfl⟩, rfl⟩
        | succ t ih =>
          intro ht
          obtain ⟨s, hs, hk⟩ := ih (by omega)
          have hut : us[t]? = some us[t] := List.getElem?_eq_getElem ht
          have hu : us[t] ∈ us := List.getElem_mem ht
          refine ⟨_, hrun.step t us[t] s (by simp) hs, ?_⟩
          rw [kfAt_succ lin u₀ us t _ hut, hso]
          have hP : IsGram (kfAt lin u₀ us t).P := by
            obtain ⟨L, -, hL⟩ := hk.cov
            rw [← hL]; exact isGram_of _
          have hRu := hR _ hu
          rw [hso] at hRu
          have a1 := (step_holds qr D s us[t] _ hk (st us[t]) (innov_det_of_R _ hRu (pred_gram hP _))).1
          have e : (buildTaylorFilter (K := K) qr svd D cb false).filterCombine s
              ((buildTaylorFilter (K := K) qr svd D cb false).filterPrepare us[t]
                (keyAt rng key (u₀ :: us).length (t + 1))) =
              tCombineNonAssoc qr svd D cb s (prepareNonAssoc D us[t]) := rfl
          rw [e, (hst _ hu).2.2.1.combine D s _ ((hst _ hu).1 s)]
          exact a1
      refine ⟨fs, fs', false, hfs, hfs', List.ext_getElem? fun t => ?_, hl.symm⟩
      rw [List.getElem?_map, List.getElem?_map]
      rcases Nat.lt_or_ge us.length t with ht | ht
      · rw [List.getElem?_eq_none (by omega), List.getElem?_eq_none (by omega)]
        rfl
      · obtain ⟨s₁, e1, hm, ⟨L, hL, hLP⟩, -⟩ := main t ht
        obtain ⟨s₂, e2, hm', ⟨L', hL', hLP'⟩, -⟩ := hk t ht
        rw [e1, e2, Option.map_some, Option.map_some, hm, hm', hL, hL', Option.map_some, Option.map_some, hLP, hLP']
  have hlen' : us.length + 1 = fs'.length := by
    have := congrArg List.length h3
    simp only [List.length_map] at this
    omega
  have h4 : (smoother rng' LState.modelInputs (fun u => .ok (opts.dummy u))
        (buildTaylorSmoother qr svd cb.rtol cb.ignoreNanDims cb.getDynamics opts) fs (some us) parallel'
          key').result.map (List.map smoothView) =
      (smoother rng' FilterState.modelInputs (fun u => .ok (opts.dummy u))
        (buildSmoother qr lin.getDynamics opts) fs' (some us) parallel' key').result.map (List.map smoothView) := by
    rw [map_smoothView, map_smoothView]
    congr 1
    refine smoother_view rng' rng' _ _ _ _ _ sRoot sRoot sRootOp (fun a b => sRoot_combine qr a b)
      (fun a b => sRoot_combine qr a b) fs fs' us (by omega) (by omega) (fun t x x' u hx hx' hu k1 k2 => ?_)
      (fun x x' hx hx' d _ _ => ?_) parallel' key' key'
    · obtain ⟨e1, e2⟩ := h3.get t x x' hx hx'
      rw [(hst u (List.mem_of_getElem? hu)).2.1, smootherStateOf_some, ← hdy]
      exact sRoot_prepare qr qr lin.getDynamics lin.getDynamics (fun _ => rfl) (fun _ => rfl) (fun _ => rfl) opts _ _ u
        e1 e2
    · rw [List.getLast?_eq_getElem?] at hx hx'
      rw [show fs'.length - 1 = fs.length - 1 by omega] at hx'
      obtain ⟨e1, e2⟩ := h3.get _ x x' hx hx'
      exact sRoot_convert opts _ _ d e1 e2
  obtain ⟨states', m, h5, h6, h7⟩ := kalman_smoother_map qr rng rng' lin u₀ us hus p' parallel' key key' opts hR
    (by rw [hin, hLP]; exact hgau.cond.det_ne_zero) hQ fs' h2 (some us) (.inr (.inl rfl))
  rw [h5] at h4
  cases hrs : (smoother rng' LState.modelInputs (fun u => .ok (opts.dummy u))
      (buildTaylorSmoother qr svd cb.rtol cb.ignoreNanDims cb.getDynamics opts) fs (some us) parallel' key').result with
  | error e => rw [hrs] at h4; cases h4
  | ok states =>
    rw [hrs] at h4
    simp only [Except.map, Except.ok.injEq] at h4
    have hmat : ∀ (vs : List Inp) (z : ℕ → Fin nx → ℝ), (∀ u ∈ vs, u ∈ us) →
        (∀ (t : ℕ) u, vs[t]? = some u → pts u = (z t, z (t + 1))) →
        MatchedAlong (vs.map nl) (vs.map (stepOf lin)) z := by
      intro vs
      induction vs with
      | nil => exact fun _ _ _ => trivial
      | cons u vs ih =>
        intro z hv hz
        refine ⟨?_, ih _ (fun w hw => hv w (List.mem_cons_of_mem _ hw)) fun t w hw => hz (t + 1) w hw⟩
        have := (hst u (hv u List.mem_cons_self)).2.2.2
        rw [hz 0 u rfl] at this
        rw [hso]
        exact this
    have h8 := max_ascent (pLogDensity m0 P0 (us.map nl)) (pathLogDensity (lin.getInit u₀).1 (lin.getInit u₀).2
      (us.map (stepOf lin))) x m us.length (fun v => by
        obtain ⟨A, D', C, a1, a2⟩ := pLogDensityFrom_slope (us.map nl) (us.map (stepOf lin)) x v
          (hmat us x (fun _ h => h) hx)
        have t1 : HasDerivAt (fun s : ℝ => x 0 + s • v 0 - m0) (v 0) 0 := (line_hasDerivAt (x 0) (v 0)).sub_const m0
        have t2 := gaussLogDensity_hasDerivAt P0 _ _ t1
        simp only [zero_smul, add_zero] at t2
        refine ⟨gaussLogDensity 0 P0 (x 0 - m0) + A, slope P0 (x 0 - m0) (v 0) + D',
          -(1 / 2) * (v 0 ⬝ᵥ P0⁻¹ *ᵥ v 0) + C, ?_, fun s => ?_⟩
        · refine (t2.add a1).congr_of_eventuallyEq (Filter.Eventually.of_forall fun s => ?_)
          change gaussLogDensity m0 P0 (x 0 + s • v 0) + pLogDensityFrom (us.map nl) (x + s • v) = _
          rw [gaussLogDensity_sub m0]
          rfl
        · have e1 : (x + s • v) 0 - m0 = (x 0 - m0) + s • v 0 := by
            simp only [Pi.add_apply, Pi.smul_apply]
            abel
          rw [pathLogDensity, hin, hLP, gaussLogDensity_sub m0, e1, gaussLogDensity_line, a2 s]
          ring) h7 fun x' hx' => by
        rw [pathLogDensity, pathLogDensity, hx' 0 (Nat.zero_le _), logDensityFrom_congr _ x' m fun t ht => hx' t (by
          rw [List.length_map] at ht
          exact ht)]
    obtain ⟨a1, a2, a3, a4⟩ := h8
    refine ⟨fs, states, m, h1, hrs, fun t ht => ?_, a1, a2, fun hz t ht => (a3 hz t ht).symm,
      ⟨fun hm => a4 fun t ht => (hm t ht).symm, fun hz t ht => (a3 (hz _) t ht).symm⟩⟩
    obtain ⟨s', hs', hm'⟩ := h6 t ht
    have h9 := congrArg (fun l => l[t]?) h4
    simp only [List.getElem?_map, hs', Option.map_some] at h9
    cases hst : states[t]? with
    | none => rw [hst] at h9; cases h9
    | some s =>
      rw [hst, Option.map_some, Option.some.injEq] at h9
      exact ⟨s, rfl, by rw [← hm']; exact congrArg Prod.fst h9⟩

/-! ## C103 -/

/-- **C103** (where the iteration is right; the full claim allows any conditional log densities). Filter and smooth with
the Taylor methods, linearising along a given trajectory `x`, a model with additive Gaussian noise in the transitions and
either log potentials or conditional log densities with additive Gaussian noise as observations. Writing `m` for the
smoothed means and `ℓ` for the exact log posterior density: the direction from `x` to `m` is never one of descent of
`ℓ`; its slope is zero only if `m = x`; and `m = x` exactly when `x` is a stationary point of `ℓ`. This holds also where
the log potentials are not concave. -/
theorem taylor_smoother_ascent_partial (qr : QR) (svd : SVD) (D : Dummies nx) (cb : TCallbacks nx ny Inp)
    (hr : 0 ≤ cb.rtol)
    (rng rng' : Prng K) (u₀ : Inp) (us : List Inp) (hus : us ≠ []) (m0 : Fin nx → ℝ) (P0 : Matrix (Fin nx) (Fin nx) ℝ)
    (nl : Inp → PStep nx) (pts : Inp → (Fin nx → ℝ) × (Fin nx → ℝ)) (h : Relinearised cb u₀ us m0 P0 nl pts)
    (ho : (∀ u ∈ us, ObservesPotential cb u (nl u).g (pts u).2) ∨ ∀ u ∈ us, ObservesAdditive cb u (nl u).g (pts u).2)
    (associative parallel parallel' : Bool)
    (hpar : associative = true ∨ parallel = false) (key key' : Option K) (opts : SmootherOpts nx Inp)
    (x : ℕ → Fin nx → ℝ) (hx : ∀ (t : ℕ) u, us[t]? = some u → pts u = (x t, x (t + 1))) :
    ∃ fs states m, (filter rng (buildTaylorFilter qr svd D cb associative) (u₀ :: us) parallel key).result = .ok fs ∧
      (smoother rng' LState.modelInputs (fun u => .ok (opts.dummy u))
        (buildTaylorSmoother qr svd cb.rtol cb.ignoreNanDims cb.getDynamics opts) fs (some us) parallel' key').result =
          .ok states ∧
      (∀ t ≤ us.length, ∃ s, states[t]? = some s ∧ s.mean = some (m t)) ∧
      (∀ v, LineDifferentiableAt ℝ (pLogDensity m0 P0 (us.map nl)) x v) ∧
      0 ≤ lineDeriv ℝ (pLogDensity m0 P0 (us.map nl)) x (m - x) ∧
      (lineDeriv ℝ (pLogDensity m0 P0 (us.map nl)) x (m - x) = 0 → ∀ t ≤ us.length, m t = x t) ∧
      ((∀ t ≤ us.length, m t = x t) ↔ ∀ v, lineDeriv ℝ (pLogDensity m0 P0 (us.map nl)) x v = 0) := by
  rcases ho with ho | ho
  · exact taylor_smoother_tangent qr svd D cb hr rng rng' u₀ us hus m0 P0 nl pts h
      (fun u hu => (ho u hu).tangent qr svd hr) associative parallel parallel' hpar key key' opts x hx
  · exact taylor_smoother_tangent qr svd D cb hr rng rng' u₀ us hus m0 P0 nl pts h
      (fun u hu => (ho u hu).tangent qr svd hr) associative parallel parallel' hpar key key' opts x hx

/-! ### Conditional densities with noise that depends on the state -/

/-- The conditional log density of `N(0, exp x)`: stochastic volatility. -/
structure IsStochVol (p : CondDensity 1 1) : Prop where
  ad : p.AD
  value : ∀ x z : Fin 1 → ℝ, p.value x (fun i => some (z i)) =
    gaussLogDensity 0 (Matrix.of fun _ _ => Real.exp (x 0)) z

theorem stochVol_value (a : ℝ) (z : Fin 1 → ℝ) : gaussLogDensity 0 (Matrix.of fun _ _ : Fin 1 => Real.exp a) z =
    -(1 / 2) * Real.log (2 * Real.pi) - 1 / 2 * a - 1 / 2 * (z 0 ^ 2 * Real.exp (-a)) := by
  have hdet : (Matrix.of fun _ _ : Fin 1 => Real.exp a).det = Real.exp a := by
    rw [Matrix.det_fin_one, Matrix.of_apply]
  have hinv : (Matrix.of fun _ _ : Fin 1 => Real.exp a)⁻¹ = Matrix.of fun _ _ : Fin 1 => Real.exp (-a) := by
    refine Matrix.inv_eq_right_inv ?_
    ext i j
    rw [Matrix.mul_apply, Fin.sum_univ_one, Matrix.of_apply, Matrix.of_apply, ← Real.exp_add, add_neg_cancel,
      Real.exp_zero, Subsingleton.elim i j, Matrix.one_apply_eq]
  rw [gaussLogDensity, hdet, hinv, Real.log_exp, sub_zero, dotProduct, Fin.sum_univ_one, Matrix.mulVec, dotProduct,
    Fin.sum_univ_one, Matrix.of_apply, Fintype.card_fin]
  push_cast
  ring

/-- What linearising the log density of `N(0, exp x)` gives: an observation with the slope of `-y² exp (-x)`, not that
of the log density. -/
theorem IsStochVol.tangent {cb : TCallbacks 1 1 Inp} {u : Inp} {p : CondDensity 1 1} (hp : IsStochVol p) (y : ℝ)
    (x : Fin 1 → ℝ) (hobs : ∀ s, cb.getObservation s u = .density p (fun i => some (x i)) fun _ => some y)
    (qr : QR) (svd : SVD) (hr : 0 ≤ cb.rtol) (hr1 : cb.rtol < 1) :
    ∃ o : ObsParams 1 1, Obtains qr svd cb u o ∧ Tangent (fun x => -(y ^ 2 * Real.exp (-x 0))) x o := by
  obtain ⟨Y, hY⟩ : ∃ Y : Fin 1 → Option ℝ, Y = fun _ => some y := ⟨_, rfl⟩
  have hYn : ∀ i, Y i ≠ none := fun i => by rw [hY]; simp
  obtain ⟨i0, hi0⟩ : ∃ i0 : Obs Y, ∀ i : Obs Y, i = i0 :=
    ⟨⟨0, by rw [hY]; rfl⟩, fun i => Subtype.ext (Subsingleton.elim _ _)⟩
  have hsub : Subsingleton (Obs Y) := ⟨fun a b => (hi0 a).trans (hi0 b).symm⟩
  have huniv : (Finset.univ : Finset (Obs Y)) = {i0} := by
    ext i
    simp [hi0 i]
  have hYi : ∀ i : Obs Y, obsY Y i = y := fun i => by simp [obsY, hY]
  obtain ⟨P, hP⟩ : ∃ P : ℝ → Matrix (Obs Y) (Obs Y) ℝ, P = fun a => Real.exp (-a) • 1 := ⟨_, rfl⟩
  have hPs : ∀ a, (P a).IsSymm := fun a => by rw [hP]; exact Matrix.isSymm_one.smul _
  have hon : ∀ x : Fin 1 → ℝ, p.on Y x = quadForm (0 : Matrix (Obs Y) (Fin 0) ℝ) 0 (P (x 0))
      (-(1 / 2) * Real.log (2 * Real.pi) - 1 / 2 * x 0) 0 := by
    intro x
    funext z
    have hfill : fillObs Y z = fun i => some (z i0) := by
      funext i
      rw [fillObs, dif_pos (isNone_false.mpr (hYn i)), hi0 ⟨i, _⟩]
    rw [CondDensity.on, hfill, hp.value x fun _ => z i0, stochVol_value, quadForm, Matrix.zero_mulVec, zero_add,
      sub_zero, dotProduct, huniv, Finset.sum_singleton, hP]
    simp only []
    rw [Matrix.smul_mulVec, Matrix.one_mulVec, Pi.smul_apply, smul_eq_mul]
    ring
  have hcd : ContDiff ℝ 2 fun q : (Fin 1 → ℝ) × (Obs Y → ℝ) => p.on Y q.1 q.2 := by
    simp only [hon, quadForm, Matrix.zero_mulVec, zero_add, sub_zero, hP, Matrix.smul_mulVec, Matrix.one_mulVec,
      dotProduct, Pi.smul_apply, smul_eq_mul]
    have h1 : ContDiff ℝ 2 fun q : (Fin 1 → ℝ) × (Obs Y → ℝ) => q.1 0 :=
      (contDiff_apply ℝ ℝ 0).comp contDiff_fst
    have h2 := h1.neg.exp
    fun_prop
  have hw : WellConditioned cb.rtol (P (x 0)) := by
    refine ⟨hPs _, Real.exp (-x 0), Real.exp (-x 0), Real.exp_pos _, ?_, fun z => ?_⟩
    · nlinarith [Real.exp_pos (-x 0)]
    · rw [hP]
      simp only []
      rw [Matrix.smul_mulVec, Matrix.one_mulVec, dotProduct_smul, smul_eq_mul]
      exact ⟨le_rfl, le_rfl⟩
  obtain ⟨L, l1, l2, l3, l4, l5, l6, l7⟩ := linearizeLogDensity_eq qr svd cb.rtol hr cb.ignoreNanDims p x Y (.inr hYn)
    (fun _ => -(Real.exp (-x 0) * y)) (Matrix.of fun _ _ => Real.exp (-x 0) * y) (P (x 0)) hw
    (fun i => by
      rw [hp.ad.grad x Y hcd, hon, quadForm_grad (hPs _), Matrix.zero_mulVec, zero_add, sub_zero, hP]
      simp only []
      rw [Matrix.smul_mulVec, Matrix.one_mulVec, Pi.smul_apply, hYi, smul_eq_mul])
    (fun i j => by
      obtain rfl : j = 0 := Subsingleton.elim _ _
      rw [hp.ad.jac x Y hcd]
      simp only [hon, quadForm_grad (hPs _), Matrix.zero_mulVec, zero_add, sub_zero]
      congr 1
      refine HasLineDerivAt.lineDeriv ?_
      have h1 : HasDerivAt (fun s : ℝ => -(Real.exp (-(x 0 + s)) * y)) (-(Real.exp (-(x 0 + 0)) * -1 * y)) 0 :=
        ((((hasDerivAt_id (0 : ℝ)).const_add (x 0)).neg.exp).mul_const y).neg
      rw [Matrix.of_apply]
      have h2 : -(Real.exp (-(x 0 + 0)) * -1 * y) = Real.exp (-x 0) * y := by rw [add_zero]; ring
      rw [← h2]
      refine h1.congr_of_eventuallyEq (Filter.Eventually.of_forall fun s => ?_)
      simp only [hP, Matrix.smul_mulVec, Matrix.one_mulVec, Pi.smul_apply, hYi, smul_eq_mul, Pi.add_apply,
        Pi.single_eq_same, mul_one])
    (fun i j => by rw [hp.ad.hess x Y hcd, hon, quadForm_hess (hPs _)])
    (hp.ad.missing x Y hcd)
  have hLL : L * Lᵀ = Real.exp (x 0) • 1 := by
    have h1 := Matrix.inv_eq_right_inv l2
    rw [← h1]
    refine Matrix.inv_eq_right_inv ?_
    rw [hP]
    simp only []
    rw [Matrix.smul_mul, Matrix.one_mul, smul_smul, ← Real.exp_add, neg_add_cancel, Real.exp_zero, one_smul]
  have hee : ∀ a : ℝ, Real.exp (x 0) * (Real.exp (-x 0) * a) = a := fun a => by
    rw [← mul_assoc, ← Real.exp_add, add_neg_cancel, Real.exp_zero, one_mul]
  have hmat : L * Lᵀ * (Matrix.of fun _ _ => Real.exp (-x 0) * y) = (Matrix.of fun _ _ => y : Matrix (Obs Y) (Fin 1) ℝ) := by
    ext i j
    rw [hLL, Matrix.smul_mul, Matrix.one_mul, Matrix.smul_apply, Matrix.of_apply, Matrix.of_apply, smul_eq_mul, hee]
  rw [hmat] at l3 l4
  have l4' : ∀ i : Obs Y, (linearizeLogDensity qr svd cb.rtol cb.ignoreNanDims p (fun k => some (x k)) Y).2.1 i.1 =
      some ((fun _ : Fin 1 => -(y * x 0)) i.1) := fun i => by
    rw [l4, hLL, Matrix.smul_mulVec, Matrix.one_mulVec, Pi.add_apply, Pi.sub_apply, Pi.smul_apply, hYi, smul_eq_mul,
      mul_neg, hee, Matrix.mulVec, dotProduct, Fin.sum_univ_one, Matrix.of_apply]
    congr 1
    ring
  obtain ⟨ho, a1, a2, a3⟩ := finiteObs_eq _ _ _ Y (Matrix.of fun _ _ => y) (fun _ => -(y * x 0)) L l3 l4' l5 l7
  rw [hLL] at a3
  rw [← hY] at hobs
  refine ⟨_, .density p _ Y _ hobs ho, ?_, fun v => ?_⟩
  · rw [a3, Matrix.det_smul, Matrix.det_one, mul_one]
    exact pow_ne_zero _ (Real.exp_pos _).ne'
  · simp only []
    rw [a1, a2, a3]
    have h1 : HasDerivAt (fun s : ℝ => -(y ^ 2 * Real.exp (-(x 0 + s * v 0))))
        (-(y ^ 2 * (Real.exp (-(x 0 + 0 * v 0)) * -(1 * v 0)))) 0 :=
      ((((((hasDerivAt_id (0 : ℝ)).mul_const (v 0)).const_add (x 0)).neg).exp).const_mul (y ^ 2)).neg
    have hr : obsY Y - (obsH Y (Matrix.of fun _ _ => y) *ᵥ x + obsV Y fun _ => -(y * x 0)) = fun _ => y := by
      funext i
      rw [Pi.sub_apply, Pi.add_apply, hYi, Matrix.mulVec, dotProduct, Fin.sum_univ_one]
      change y - (y * x 0 + -(y * x 0)) = y
      ring
    have hv : -(obsH Y (Matrix.of fun _ _ => y) *ᵥ v) = fun _ => -(y * v 0) := by
      funext i
      rw [Pi.neg_apply, Matrix.mulVec, dotProduct, Fin.sum_univ_one]
      rfl
    have hinv : (Real.exp (x 0) • (1 : Matrix (Obs Y) (Obs Y) ℝ))⁻¹ = Real.exp (-x 0) • 1 := by
      refine Matrix.inv_eq_right_inv ?_
      rw [Matrix.smul_mul, Matrix.one_mul, smul_smul, ← Real.exp_add, add_neg_cancel, Real.exp_zero, one_smul]
    rw [hr, hv, slope, hinv, Matrix.smul_mulVec, Matrix.one_mulVec, Matrix.smul_mulVec, Matrix.one_mulVec, dotProduct,
      dotProduct, huniv, Finset.sum_singleton, Finset.sum_singleton]
    convert h1 using 1
    · rfl
    · rw [Pi.smul_apply, Pi.smul_apply, smul_eq_mul, smul_eq_mul, zero_mul, add_zero]
      ring

/-- The log likelihood of an observation from `N(0, exp x)`. -/
def volLogLik (y : ℝ) (x : Fin 1 → ℝ) : ℝ := gaussLogDensity (0 : Fin 1 → ℝ) (Matrix.of fun _ _ => Real.exp (x 0)) fun _ => y

/-- The same model with the log likelihood `-y² exp (-x)` in place of that of `N(0, exp x)`. -/
def wrongVol (nl : Inp → PStep 1) (y : Inp → ℝ) (u : Inp) : PStep 1 :=
  ⟨(nl u).f, (nl u).Q, fun x => -(y u ^ 2 * Real.exp (-x 0))⟩

theorem wrongVol_slope (nl : Inp → PStep 1) (y : Inp → ℝ) : ∀ (us : List Inp) (x v : ℕ → Fin 1 → ℝ) (D : ℝ),
    (∀ u ∈ us, ∀ x, (nl u).g x = volLogLik (y u) x) →
    HasDerivAt (fun s : ℝ => pLogDensityFrom (us.map (wrongVol nl y)) (x + s • v)) D 0 →
    HasDerivAt (fun s : ℝ => pLogDensityFrom (us.map nl) (x + s • v)) (D + -(1 / 2) *
      ∑ t ∈ Finset.range us.length, (1 + ((us.map y).getD t 0) ^ 2 * Real.exp (-x (t + 1) 0)) * v (t + 1) 0) 0 := by
  intro us x v D hg hD
  have key : ∀ (us : List Inp) (x v : ℕ → Fin 1 → ℝ),
      (∀ u ∈ us, ∀ x, (nl u).g x = volLogLik (y u) x) →
      HasDerivAt (fun s : ℝ => pLogDensityFrom (us.map nl) (x + s • v) -
        pLogDensityFrom (us.map (wrongVol nl y)) (x + s • v)) (-(1 / 2) *
      ∑ t ∈ Finset.range us.length, (1 + ((us.map y).getD t 0) ^ 2 * Real.exp (-x (t + 1) 0)) * v (t + 1) 0) 0 := by
    intro us
    induction us with
    | nil =>
      intro x v _
      simpa [pLogDensityFrom] using hasDerivAt_const (0 : ℝ) (0 : ℝ)
    | cons u us ih =>
      intro x v hg
      have h1 := ih (fun k => x (k + 1)) (fun k => v (k + 1)) fun w hw => hg w (List.mem_cons_of_mem _ hw)
      have h2 : HasDerivAt (fun s : ℝ => (-(1 / 2) * Real.log (2 * Real.pi) - 1 / 2 * (x 1 0 + s * v 1 0) +
          1 / 2 * (y u ^ 2 * Real.exp (-(x 1 0 + s * v 1 0)))))
          (-(1 / 2 * (1 * v 1 0)) + 1 / 2 * (y u ^ 2 * (Real.exp (-(x 1 0 + 0 * v 1 0)) * -(1 * v 1 0)))) 0 :=
        (((((hasDerivAt_id (0 : ℝ)).mul_const (v 1 0)).const_add (x 1 0)).const_mul (1 / 2)).const_sub _).add
          (((((((hasDerivAt_id (0 : ℝ)).mul_const (v 1 0)).const_add (x 1 0)).neg).exp).const_mul
            (y u ^ 2)).const_mul (1 / 2))
      have h3 := h2.add h1
      have hval : -(1 / 2) * ∑ t ∈ Finset.range (u :: us).length, (1 + (((u :: us).map y).getD t 0) ^ 2 *
          Real.exp (-x (t + 1) 0)) * v (t + 1) 0 = -(1 / 2 * (1 * v 1 0)) + 1 / 2 * (y u ^ 2 *
            (Real.exp (-(x 1 0 + 0 * v 1 0)) * -(1 * v 1 0))) + -(1 / 2) * ∑ t ∈ Finset.range us.length,
            (1 + ((us.map y).getD t 0) ^ 2 * Real.exp (-x (t + 1 + 1) 0)) * v (t + 1 + 1) 0 := by
        rw [List.length_cons, Finset.sum_range_succ']
        simp only [List.map_cons, List.getD_cons_succ, List.getD_cons_zero, zero_mul, add_zero, zero_add]
        ring
      rw [hval]
      refine h3.congr_of_eventuallyEq (Filter.Eventually.of_forall fun s => ?_)
      have e2 : (fun k => (x + s • v) (k + 1)) = (fun k => x (k + 1)) + s • fun k => v (k + 1) := rfl
      simp only [List.map_cons, pLogDensityFrom]
      rw [e2, hg u List.mem_cons_self, volLogLik, stochVol_value]
      have e1 : (x + s • v) 1 0 = x 1 0 + s * v 1 0 := rfl
      simp only [wrongVol, e1, Pi.add_apply (fun s : ℝ => _) (fun s : ℝ => _)]
      ring
  refine (hD.add (key us x v hg)).congr_of_eventuallyEq (Filter.Eventually.of_forall fun s => ?_)
  simp only [Pi.add_apply]
  ring

/-- **C103** (negation). If the log density of `N(0, exp x)` is given as a conditional log density, the iteration climbs
another function: where it stops, the exact log posterior has slope `-(1 + y² exp (-x)) / 2` in each observed state,
whatever the observations. -/
theorem taylor_smoother_stoch_vol (qr : QR) (svd : SVD) (D : Dummies 1) (cb : TCallbacks 1 1 Inp) (hr : 0 ≤ cb.rtol)
    (hr1 : cb.rtol < 1)
    (rng rng' : Prng K) (u₀ : Inp) (us : List Inp) (hus : us ≠ []) (m0 : Fin 1 → ℝ) (P0 : Matrix (Fin 1) (Fin 1) ℝ)
    (nl : Inp → PStep 1) (pts : Inp → (Fin 1 → ℝ) × (Fin 1 → ℝ)) (h : Relinearised cb u₀ us m0 P0 nl pts) (y : Inp → ℝ)
    (ho : ∀ u ∈ us, ∃ p, IsStochVol p ∧ ∀ s, cb.getObservation s u =
      .density p (fun i => some ((pts u).2 i)) fun _ => some (y u))
    (hg : ∀ u ∈ us, ∀ x, (nl u).g x = volLogLik (y u) x)
    (associative parallel parallel' : Bool)
    (hpar : associative = true ∨ parallel = false) (key key' : Option K) (opts : SmootherOpts 1 Inp)
    (x : ℕ → Fin 1 → ℝ) (hx : ∀ (t : ℕ) u, us[t]? = some u → pts u = (x t, x (t + 1))) :
    ∃ fs states, ∃ m : ℕ → Fin 1 → ℝ, (filter rng (buildTaylorFilter qr svd D cb associative) (u₀ :: us) parallel key).result = .ok fs ∧
      (smoother rng' LState.modelInputs (fun u => .ok (opts.dummy u))
        (buildTaylorSmoother qr svd cb.rtol cb.ignoreNanDims cb.getDynamics opts) fs (some us) parallel' key').result =
          .ok states ∧
      (∀ t ≤ us.length, ∃ s, states[t]? = some s ∧ s.mean = some (m t)) ∧
      ((∀ t ≤ us.length, m t = x t) ↔ ∀ v, lineDeriv ℝ (pLogDensity m0 P0 (us.map (wrongVol nl y))) x v = 0) ∧
      ((∀ t ≤ us.length, m t = x t) → ∀ v, lineDeriv ℝ (pLogDensity m0 P0 (us.map nl)) x v = -(1 / 2) *
        ∑ t ∈ Finset.range us.length, (1 + ((us.map y).getD t 0) ^ 2 * Real.exp (-x (t + 1) 0)) * v (t + 1) 0) := by
  obtain ⟨fs, states, m, h1, h2, h3, h4, -, -, h5⟩ := taylor_smoother_tangent qr svd D cb hr rng rng' u₀ us hus m0 P0
    (wrongVol nl y) pts ⟨h.init, h.dynamics⟩ (fun u hu => by
      obtain ⟨p, hp, hobs⟩ := ho u hu
      exact hp.tangent (y u) _ hobs qr svd hr hr1) associative parallel parallel' hpar key key' opts x hx
  refine ⟨fs, states, m, h1, h2, h3, h5, fun hm v => ?_⟩
  have h6 : HasDerivAt (fun s : ℝ => pLogDensity m0 P0 (us.map (wrongVol nl y)) (x + s • v)) 0 0 := by
    have := (h4 v).hasLineDerivAt
    rw [h5.mp hm v] at this
    exact this
  have t1 : HasDerivAt (fun s : ℝ => x 0 + s • v 0 - m0) (v 0) 0 := (line_hasDerivAt (x 0) (v 0)).sub_const m0
  have t2 := gaussLogDensity_hasDerivAt P0 _ _ t1
  have hfun : ∀ ps : List (PStep 1), (fun s : ℝ => pLogDensity m0 P0 ps (x + s • v)) =
      fun s => gaussLogDensity 0 P0 (x 0 + s • v 0 - m0) + pLogDensityFrom ps (x + s • v) := by
    intro ps
    funext s
    rw [pLogDensity, gaussLogDensity_sub m0]
    rfl
  rw [hfun] at h6
  have h7 := h6.sub t2
  have h8 := wrongVol_slope nl y us x v _ hg (h7.congr_of_eventuallyEq (Filter.Eventually.of_forall fun s => by
    simp only [Pi.sub_apply, add_sub_cancel_left]))
  have h9 := t2.add h8
  refine HasLineDerivAt.lineDeriv (?_ : HasDerivAt (fun s : ℝ => pLogDensity m0 P0 (us.map nl) (x + s • v)) _ 0)
  rw [hfun]
  exact h9.congr_deriv (by ring)

/-! ### The hypotheses can be met -/

theorem exists_gaussian_potential (m0 : Fin nx → ℝ) {P0 : Matrix (Fin nx) (Fin nx) ℝ} {rtol : ℝ}
    (hP : WellConditioned rtol P0) : ∃ p : Potential nx, IsGaussian rtol p m0 P0 := by
  obtain ⟨p, hp, had⟩ := exists_potential (gaussLogDensity m0 P0)
  exact ⟨p, had, hP, 0, fun x => by rw [hp, add_zero]⟩

theorem exists_additive_transition {f : (Fin nx → ℝ) → Fin nx → ℝ} (hf : ContDiff ℝ 2 f)
    {Q : Matrix (Fin nx) (Fin nx) ℝ} {rtol : ℝ} (hQ : WellConditioned rtol Q) :
    ∃ p : CondDensity nx nx, IsAdditiveTransition rtol p f Q := by
  obtain ⟨p, hp, had⟩ := exists_condDensity (nx := nx) (ny := nx) fun x y => gaussLogDensity (f x) Q fun i => (y i).getD 0
  exact ⟨p, had, hf, hQ, 0, fun x z => by rw [hp, add_zero]; rfl⟩

theorem exists_stochVol : ∃ p : CondDensity 1 1, IsStochVol p := by
  obtain ⟨p, hp, had⟩ := exists_condDensity (nx := 1) (ny := 1) fun x y =>
    gaussLogDensity 0 (Matrix.of fun _ _ : Fin 1 => Real.exp (x 0)) fun i => (y i).getD 0
  exact ⟨p, had, fun x z => by rw [hp]; rfl⟩

theorem one_wellConditioned {rtol : ℝ} (h : rtol < 1) : WellConditioned rtol (1 : Matrix (Fin nx) (Fin nx) ℝ) :=
  ⟨Matrix.isSymm_one, 1, 1, one_pos, by simpa using h, fun x => by
    rw [Matrix.one_mulVec, one_mul]; exact ⟨le_rfl, le_rfl⟩⟩

/-- The log likelihood of stochastic volatility has curvature if the observation is not zero, so it can be given as a
log potential. -/
theorem volLogLik_curvature {rtol : ℝ} (h1 : rtol < 1) (y : ℝ) (hy : y ≠ 0) (x : Fin 1 → ℝ) :
    HasCurvature rtol (volLogLik y) x (Matrix.of fun _ _ => 1 / 2 * (y ^ 2 * Real.exp (-x 0))) := by
  obtain ⟨b, hb⟩ : ∃ b : (Fin 1 → ℝ) → ℝ, b = fun x => 1 / 2 * (y ^ 2 * Real.exp (-x 0)) := ⟨_, rfl⟩
  have hbx : 1 / 2 * (y ^ 2 * Real.exp (-x 0)) = b x := by rw [hb]
  have hbp : 0 < b x := by
    rw [hb]
    have := Real.exp_pos (-x 0)
    positivity
  have hval : volLogLik y = fun x => -(1 / 2) * Real.log (2 * Real.pi) - 1 / 2 * x 0 - b x := by
    funext x
    rw [volLogLik, stochVol_value, hb]
  have hmul : ∀ v : Fin 1 → ℝ, (Matrix.of fun _ _ : Fin 1 => b x) *ᵥ v = b x • v := by
    intro v
    funext i
    obtain rfl : i = 0 := Subsingleton.elim _ _
    rw [Matrix.mulVec, dotProduct, Fin.sum_univ_one]
    rfl
  have hbd : ∀ z : Fin 1 → ℝ, HasLineDerivAt ℝ b (-b z) z (Pi.single 0 1) := by
    intro z
    have h2 : HasDerivAt (fun s : ℝ => 1 / 2 * (y ^ 2 * Real.exp (-(z 0 + s))))
        (1 / 2 * (y ^ 2 * (Real.exp (-(z 0 + 0)) * -1))) 0 :=
      (((((hasDerivAt_id (0 : ℝ)).const_add (z 0)).neg.exp).const_mul (y ^ 2))).const_mul (1 / 2)
    refine (h2.congr_deriv ?_).congr_of_eventuallyEq (Filter.Eventually.of_forall fun s => ?_)
    · rw [hb, add_zero]
      ring
    · rw [hb]
      simp
  have hgrad : ∀ z : Fin 1 → ℝ, lineDeriv ℝ (volLogLik y) z (Pi.single 0 1) = -(1 / 2) + b z := by
    intro z
    refine HasLineDerivAt.lineDeriv ?_
    have h2 : HasDerivAt (fun s : ℝ => -(1 / 2) * Real.log (2 * Real.pi) - 1 / 2 * (z 0 + s)) (-(1 / 2 * 1)) 0 :=
      (((hasDerivAt_id (0 : ℝ)).const_add (z 0)).const_mul (1 / 2)).const_sub _
    refine ((h2.sub (hbd z)).congr_deriv (by ring)).congr_of_eventuallyEq (Filter.Eventually.of_forall fun s => ?_)
    rw [hval]
    simp
  rw [hbx]
  have hsymm : (Matrix.of fun _ _ : Fin 1 => b x).IsSymm := rfl
  have hnz : ∀ i, ¬ ZeroDim (Matrix.of fun _ _ : Fin 1 => b x) i := fun i h => hbp.ne' (h.1 0)
  refine ⟨?_, ⟨Matrix.of fun _ _ => b x, hsymm, fun v μ hv => ?_, fun i j => ?_⟩, ⟨hsymm, b x, hbp, fun v μ hv h => ?_⟩,
    fun v hv i hi => ?_, fun i hi => absurd hi (hnz i)⟩
  · rw [hval, hb]
    have h2 : ContDiff ℝ 2 fun x : Fin 1 → ℝ => x 0 := contDiff_apply ℝ ℝ 0
    have h3 := h2.neg.exp
    fun_prop
  · rw [hmul] at hv ⊢
    by_cases hv0 : v = 0
    · rw [hv0, smul_zero, smul_zero]
    · rw [← smul_left_injective ℝ hv0 hv, abs_of_pos hbp]
  · obtain rfl : i = 0 := Subsingleton.elim _ _
    obtain rfl : j = 0 := Subsingleton.elim _ _
    simp only [hgrad]
    refine HasLineDerivAt.lineDeriv ?_
    exact HasDerivAt.const_add _ (hbd x)
  · rw [hmul] at h
    rw [← smul_left_injective ℝ hv h]
    refine .inr ⟨?_, le_rfl⟩
    nlinarith
  · rw [hmul] at hv
    exact absurd (congrFun ((smul_eq_zero_iff_right hbp.ne').mp hv) i) hi

/-- Non-vacuity for C103: stochastic volatility given by log potentials. The inputs carry the observation and the two
linearisation points. -/
example : ∃ (cb : TCallbacks 1 1 (ℝ × ℝ × ℝ)) (nl : ℝ × ℝ × ℝ → PStep 1), cb.rtol = 1 / 2 ∧
    (∀ u, (nl u).g = volLogLik u.1) ∧ ∀ u₀ us, (∀ u ∈ us, u.1 ≠ 0) →
      Relinearised cb u₀ us 0 1 nl (fun u => (fun _ => u.2.1, fun _ => u.2.2)) ∧
      ∀ u ∈ us, ObservesPotential cb u (nl u).g fun _ => u.2.2 := by
  obtain ⟨p0, hp0⟩ := exists_gaussian_potential (nx := 1) 0 (one_wellConditioned (rtol := 1 / 2) (by norm_num))
  obtain ⟨p, hp⟩ := exists_additive_transition (nx := 1) (f := fun x => x) contDiff_id
    (one_wellConditioned (rtol := 1 / 2) (by norm_num))
  have hex : ∀ y, ∃ q : Potential 1, q.value = volLogLik y ∧ q.AD := fun y => exists_potential _
  choose q hq using hex
  refine ⟨{ getInit := fun _ => (p0, fun _ => some 0)
            getDynamics := fun _ u => (p, fun _ => some u.2.1, fun _ => some u.2.2)
            getObservation := fun _ u => .potential (q u.1) fun _ => some u.2.2
            rtol := 1 / 2, ignoreNanDims := false }, fun u => ⟨fun x => x, 1, volLogLik u.1⟩, rfl, fun _ => rfl,
          fun u₀ us hus => ⟨⟨⟨p0, 0, rfl, hp0⟩, fun u _ => ⟨p, fun _ => u.2.2, fun _ => rfl, hp⟩⟩, fun u hu => ?_⟩⟩
  have hc := volLogLik_curvature (rtol := 1 / 2) (by norm_num) u.1 (hus u hu) fun _ => u.2.2
  refine ⟨q u.1, _, fun _ => rfl, (hq u.1).2, ⟨0, fun x => by rw [(hq u.1).1, add_zero]⟩, hc, .inr fun i h => ?_⟩
  have h1 := h.1 0
  rw [Matrix.of_apply] at h1
  have h2 := Real.exp_pos (-u.2.2)
  have h3 := hus u hu
  have : 0 < 1 / 2 * (u.1 ^ 2 * Real.exp (-u.2.2)) := by positivity
  exact this.ne' h1

/-- **C103** (negation, witness). For stochastic volatility given by conditional log densities, with the observations
all zero, the trajectory that is zero throughout is returned unchanged, although the log posterior increases towards
lower volatilities. -/
theorem exists_stoch_vol_fixed_point : ∃ cb : TCallbacks 1 1 Unit, cb.rtol = 1 / 2 ∧
    Relinearised cb () [()] 0 1 (fun _ => ⟨fun x => x, 1, volLogLik 0⟩) (fun _ => (0, 0)) ∧
    (∃ p, IsStochVol p ∧ ∀ s u, cb.getObservation s u = .density p (fun _ => some 0) fun _ => some 0) ∧
    ∀ (qr : QR) (svd : SVD) (D : Dummies 1) (rng rng' : Prng K) (n : ℕ) (associative parallel parallel' : Bool)
      (_ : associative = true ∨ parallel = false) (key key' : Option K) (opts : SmootherOpts 1 Unit),
      ∃ fs states,
        (filter rng (buildTaylorFilter qr svd D cb associative) (() :: List.replicate (n + 1) ()) parallel key).result =
          .ok fs ∧
        (smoother rng' LState.modelInputs (fun u => .ok (opts.dummy u))
          (buildTaylorSmoother qr svd cb.rtol cb.ignoreNanDims cb.getDynamics opts) fs
            (some (List.replicate (n + 1) ())) parallel' key').result = .ok states ∧
        (∀ t ≤ n + 1, ∃ s, states[t]? = some s ∧ s.mean = some 0) ∧
        ∀ v, lineDeriv ℝ (pLogDensity 0 1 (List.replicate (n + 1) ⟨fun x => x, 1, volLogLik 0⟩)) 0 v =
          -(1 / 2) * ∑ t ∈ Finset.range (n + 1), v (t + 1) 0 := by
  obtain ⟨p0, hp0⟩ := exists_gaussian_potential (nx := 1) 0 (one_wellConditioned (rtol := 1 / 2) (by norm_num))
  obtain ⟨p, hp⟩ := exists_additive_transition (nx := 1) (f := fun x => x) contDiff_id
    (one_wellConditioned (rtol := 1 / 2) (by norm_num))
  obtain ⟨q, hq⟩ := exists_stochVol
  obtain ⟨cb, hcb⟩ : ∃ cb : TCallbacks 1 1 Unit, cb =
    { getInit := fun _ => (p0, fun _ => some 0)
      getDynamics := fun _ _ => (p, fun _ => some 0, fun _ => some 0)
      getObservation := fun _ _ => .density q (fun _ => some 0) fun _ => some 0
      rtol := 1 / 2, ignoreNanDims := false } := ⟨_, rfl⟩
  have hrel : ∀ us, Relinearised cb () us 0 1 (fun _ => ⟨fun x => x, 1, volLogLik 0⟩) (fun _ => (0, 0)) := fun us => by
    rw [hcb]
    exact ⟨⟨p0, 0, rfl, hp0⟩, fun u _ => ⟨p, 0, fun _ => rfl, hp⟩⟩
  have hobs : ∀ s u, cb.getObservation s u = .density q (fun _ => some 0) fun _ => some 0 := fun s u => by rw [hcb]
  have hrt : cb.rtol = 1 / 2 := by rw [hcb]
  refine ⟨cb, hrt, hrel _, ⟨q, hq, hobs⟩, ?_⟩
  intro qr svd D rng rng' n associative parallel parallel' hpar key key' opts
  obtain ⟨fs, states, m, h1, h2, h3, h4, h5⟩ := taylor_smoother_stoch_vol qr svd D cb (by rw [hrt]; norm_num)
    (by rw [hrt]; norm_num) rng rng' () (List.replicate (n + 1) ()) (by simp) 0 1
    (fun _ => ⟨fun x => x, 1, volLogLik 0⟩) (fun _ => (0, 0)) (hrel _) (fun _ => 0)
    (fun u _ => ⟨q, hq, fun s => hobs s u⟩) (fun u _ x => rfl) associative parallel parallel' hpar key key' opts 0
    (fun _ _ _ => rfl)
  simp only [List.length_replicate, List.map_replicate] at h3 h4 h5
  have heven : ∀ (k : ℕ) (x : ℕ → Fin 1 → ℝ), pLogDensityFrom (List.replicate k (wrongVol (Inp := Unit)
      (fun _ => ⟨fun x => x, 1, volLogLik 0⟩) (fun _ => 0) ())) (-x) = pLogDensityFrom (List.replicate k
        (wrongVol (fun _ => ⟨fun x => x, 1, volLogLik 0⟩) (fun _ => 0) ())) x := by
    intro k
    induction k with
    | zero => exact fun _ => rfl
    | succ k ih =>
      intro x
      have e := ih fun k => x (k + 1)
      rw [List.replicate_succ, pLogDensityFrom, pLogDensityFrom]
      have e2 : (fun k => (-x) (k + 1)) = -fun k => x (k + 1) := rfl
      rw [e2, e]
      simp only [wrongVol, Pi.neg_apply, ne_eq, OfNat.ofNat_ne_zero, not_false_eq_true, zero_pow, zero_mul, neg_zero,
        add_zero]
      congr 1
      have e3 : -x 1 - -x 0 = -(x 1 - x 0) := by abel
      simp only [gaussLogDensity, e3, Matrix.mulVec_neg, dotProduct_neg, neg_dotProduct, neg_neg]
  have hfix := h4.mpr fun v => ?_
  · refine ⟨fs, states, h1, h2, fun t ht => ?_, fun v => ?_⟩
    · obtain ⟨s, hs, hm⟩ := h3 t ht
      rw [hfix t ht] at hm
      exact ⟨s, hs, hm⟩
    · rw [h5 hfix v]
      congr 1
      refine Finset.sum_congr rfl fun t ht => ?_
      rw [List.getD_eq_getElem?_getD, List.getElem?_replicate, if_pos (Finset.mem_range.mp ht)]
      simp
  · obtain ⟨φ, hφ⟩ : ∃ φ : ℝ → ℝ, φ = fun s => pLogDensity 0 1 (List.replicate (n + 1) (wrongVol (Inp := Unit)
      (fun _ => ⟨fun x => x, 1, volLogLik 0⟩) (fun _ => 0) ())) (0 + s • v) := ⟨_, rfl⟩
    have h6 : (fun s => φ (-s)) = φ := by
      funext s
      rw [hφ]
      simp only [zero_add]
      rw [neg_smul, pLogDensity, pLogDensity, heven]
      congr 1
      simp only [gaussLogDensity, sub_zero, Pi.neg_apply, Matrix.mulVec_neg, dotProduct_neg, neg_dotProduct, neg_neg]
    have h7 := deriv_comp_neg φ 0
    rw [h6, neg_zero] at h7
    change deriv (fun s : ℝ => _) 0 = 0
    rw [← hφ]
    linarith

end

end Cuthbert.Linearize
