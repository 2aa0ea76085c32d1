import Verif.Model.Kalman
import Mathlib.Analysis.Calculus.FDeriv.Basic
import Mathlib.Analysis.Calculus.ContDiff.Basic
import Mathlib.Analysis.Calculus.LineDeriv.Basic
import Mathlib.LinearAlgebra.Matrix.ToLin
import Verif.Spec.Conditioning

/-!
# Linearisation and the linearised Kalman filters

Models `cuthbertlib/linearize/*.py` and `cuthbert/gaussian/{moments,taylor}/*.py`. The `has_aux`
variants are in `Model/LinearizeAux.lean`.

`jax.grad`, `jax.hessian` and `jax.jacobian` differentiate the user's program. A user's log density is
therefore modelled by its value together with what automatic differentiation returns for it, and
`CondDensity.AD` / `Potential.AD` state the contract: on smooth functions these are the partial
derivatives.
-/

namespace Cuthbert

/-- An array with the missing components of `y` missing and the others given by `z`. -/
def fillObs {ny : ℕ} (y : Fin ny → Option ℝ) (z : Obs y → ℝ) : Fin ny → Option ℝ :=
  fun i => if h : (y i).isNone = false then some (z ⟨i, h⟩) else none

end Cuthbert

namespace Cuthbert.Linearize
open Matrix

noncomputable section

variable {nx ny n : ℕ} {Inp K : Type*}

/-! ## Differentiable user functions -/

/-- A conditional log density `log p(y | x)` supplied by the user (`LogConditionalDensity` in
`cuthbertlib/types.py`) with its derivatives as computed by JAX: the gradient in `y`, the Hessian in `y` and the
Jacobian in `x` of the gradient in `y`. `none` is NaN; components of `y` may be NaN (missing), and whole
linearisation points may be NaN. -/
structure CondDensity (nx ny : ℕ) where
  value : (Fin nx → ℝ) → (Fin ny → Option ℝ) → ℝ
  grad : (Fin nx → Option ℝ) → (Fin ny → Option ℝ) → Fin ny → Option ℝ
  hess : (Fin nx → Option ℝ) → (Fin ny → Option ℝ) → NMat ny
  jac : (Fin nx → Option ℝ) → (Fin ny → Option ℝ) → Fin ny → Fin nx → Option ℝ

/-- The density as a function of `x` and the observed components of `y`. -/
def CondDensity.on (p : CondDensity nx ny) (y : Fin ny → Option ℝ) (x : Fin nx → ℝ) (z : Obs y → ℝ) : ℝ :=
  p.value x (fillObs y z)

/-- Contract of automatic differentiation: where the density is twice continuously differentiable in `x`
and the observed components of `y`, derivatives in those are the partial derivatives, and derivatives with
respect to a missing component are finite numbers (of no importance). -/
structure CondDensity.AD (p : CondDensity nx ny) : Prop where
  grad : ∀ (x : Fin nx → ℝ) (y : Fin ny → Option ℝ),
    ContDiff ℝ 2 (fun q : (Fin nx → ℝ) × (Obs y → ℝ) => p.on y q.1 q.2) → ∀ i : Obs y,
    p.grad (fun k => some (x k)) y i.1 = some (lineDeriv ℝ (p.on y x) (obsY y) (Pi.single i 1))
  hess : ∀ (x : Fin nx → ℝ) (y : Fin ny → Option ℝ),
    ContDiff ℝ 2 (fun q : (Fin nx → ℝ) × (Obs y → ℝ) => p.on y q.1 q.2) → ∀ i j : Obs y,
    p.hess (fun k => some (x k)) y i.1 j.1 =
      some (lineDeriv ℝ (fun z => lineDeriv ℝ (p.on y x) z (Pi.single i 1)) (obsY y) (Pi.single j 1))
  jac : ∀ (x : Fin nx → ℝ) (y : Fin ny → Option ℝ),
    ContDiff ℝ 2 (fun q : (Fin nx → ℝ) × (Obs y → ℝ) => p.on y q.1 q.2) → ∀ (i : Obs y) (j : Fin nx),
    p.jac (fun k => some (x k)) y i.1 j =
      some (lineDeriv ℝ (fun x => lineDeriv ℝ (p.on y x) (obsY y) (Pi.single i 1)) x (Pi.single j 1))
  missing : ∀ (x : Fin nx → ℝ) (y : Fin ny → Option ℝ),
    ContDiff ℝ 2 (fun q : (Fin nx → ℝ) × (Obs y → ℝ) => p.on y q.1 q.2) → ∀ i, y i = none →
    p.grad (fun k => some (x k)) y i ≠ none ∧ ∀ j, p.jac (fun k => some (x k)) y i j ≠ none

/-- A log density or log potential of one argument (`LogDensity` in `cuthbertlib/types.py`) with its gradient
and Hessian as computed by JAX. -/
structure Potential (n : ℕ) where
  value : (Fin n → ℝ) → ℝ
  grad : (Fin n → Option ℝ) → Fin n → Option ℝ
  hess : (Fin n → Option ℝ) → NMat n

/-- Contract of automatic differentiation for a function of one argument. -/
structure Potential.AD (p : Potential n) : Prop where
  grad : ∀ x : Fin n → ℝ, ContDiff ℝ 2 p.value → ∀ i,
    p.grad (fun k => some (x k)) i = some (lineDeriv ℝ p.value x (Pi.single i 1))
  hess : ∀ x : Fin n → ℝ, ContDiff ℝ 2 p.value → ∀ i j, p.hess (fun k => some (x k)) i j =
    some (lineDeriv ℝ (fun z => lineDeriv ℝ p.value z (Pi.single i 1)) x (Pi.single j 1))

/-! ## `cuthbertlib/linearize` -/

/-- `cuthbertlib/linearize/log_density.py:119-175`, `linearize_log_density_given_chol_cov`. -/
def linearizeGivenCholCov (ignoreNanDims : Bool) (p : CondDensity nx ny) (x : Fin nx → Option ℝ)
    (y : Fin ny → Option ℝ) (cholCov : NMat ny) : (Fin ny → Fin nx → Option ℝ) × (Fin ny → Option ℝ) :=
  -- 152-156
  let cov := if ignoreNanDims then cholCovWithNansToCov cholCov
    else nanMatMul cholCov fun i j => cholCov j i
  -- 158-171
  let jac := p.jac x y
  let g := p.grad x y
  -- 173-174
  let mat := nanMatMul cov jac
  let shift := fun i => do return (← y i) - (← nanMatVec mat x i) + (← nanMatVec cov g i)
  (mat, shift)

/-- `cuthbertlib/linearize/log_density.py:38-96`, `linearize_log_density`. -/
def linearizeLogDensity (qr : QR) (svd : SVD) (rtol : ℝ) (ignoreNanDims : Bool) (p : CondDensity nx ny)
    (x : Fin nx → Option ℝ) (y : Fin ny → Option ℝ) :
    (Fin ny → Fin nx → Option ℝ) × (Fin ny → Option ℝ) × NMat ny :=
  -- 83-84
  let prec : NMat ny := fun i j => (p.hess x y i j).map fun h => -h
  -- 85-90
  let prec : NMat ny := if ignoreNanDims then
    fun i j => if i = j ∧ ((y i).isNone || (prec i i).isNone) then none else prec i j else prec
  -- 92-96
  let cholCov := symmetricInvSqrt qr svd rtol ignoreNanDims prec
  let (mat, shift) := linearizeGivenCholCov ignoreNanDims p x y cholCov
  (mat, shift, cholCov)

/-- A conditional mean and covariance factor as functions of the state
(`cuthbertlib/linearize/moments.py:10`, `MeanAndCholCovFunc`). -/
abbrev MomentsFn (nx ny : ℕ) := (Fin nx → ℝ) → (Fin ny → ℝ) × Matrix (Fin ny) (Fin ny) ℝ

/-- `jax.jacfwd(f)(x)`: the matrix of the derivative. -/
def jacfwd (f : (Fin nx → ℝ) → Fin ny → ℝ) (x : Fin nx → ℝ) : Matrix (Fin ny) (Fin nx) ℝ :=
  LinearMap.toMatrix' (fderiv ℝ f x : (Fin nx → ℝ) →ₗ[ℝ] (Fin ny → ℝ))

/-- `cuthbertlib/linearize/moments.py:28-94`, `linearize_moments`, at a finite point. -/
def linearizeMoments (f : MomentsFn nx ny) (x : Fin nx → ℝ) :
    Matrix (Fin ny) (Fin nx) ℝ × (Fin ny → ℝ) × Matrix (Fin ny) (Fin ny) ℝ :=
  -- 91
  let F := jacfwd (fun z => (f z).1) x
  let m := (f x).1
  -- 93-94
  (F, m - F *ᵥ x, (f x).2)

/-- `cuthbertlib/linearize/taylor.py:31-83`, `linearize_taylor`. -/
def linearizeTaylor (qr : QR) (svd : SVD) (rtol : ℝ) (ignoreNanDims : Bool) (p : Potential n)
    (x : Fin n → Option ℝ) : (Fin n → Option ℝ) × NMat n :=
  -- 69-73
  let g := p.grad x
  let prec : NMat n := fun i j => (p.hess x i j).map fun h => -h
  -- 75
  let L := symmetricInvSqrt qr svd rtol ignoreNanDims prec
  -- 79-82
  let mask := fun i => (L i i).isNone && ignoreNanDims
  let Lt : NMat n := fun i j => if mask i || mask j then some 0 else L i j
  let s := nanMatVec (nanMatMul Lt fun i j => Lt j i) g
  (fun i => do return (← x i) + (← s i), L)

/-! ## `cuthbert/gaussian`: states -/

/-- `cuthbert/gaussian/types.py:37-57`, `LinearizedKalmanFilterState`. An element with a NaN in it is `none`. -/
structure LState (nx : ℕ) (Inp : Type*) where
  elem : Option (Kalman.FilterElem nx)
  modelInputs : Inp
  meanPrev : Option (Fin nx → ℝ)

/-- The part of a linearised state that a `KalmanFilterState` has too. -/
def LState.toFilter (s : LState nx Inp) : Kalman.FilterState nx Inp := ⟨s.elem, s.modelInputs⟩

/-- `LinearizedKalmanFilterState.mean`, `cuthbert/gaussian/types.py:44-47`. -/
def LState.mean (s : LState nx Inp) : Option (Fin nx → ℝ) := s.toFilter.mean

/-- `LinearizedKalmanFilterState.chol_cov`, `cuthbert/gaussian/types.py:49-52`. -/
def LState.cholCov (s : LState nx Inp) : Option (Matrix (Fin nx) (Fin nx) ℝ) := s.toFilter.cholCov

/-- `LinearizedKalmanFilterState.log_normalizing_constant`, `cuthbert/gaussian/types.py:54-57`. -/
def LState.logNormalizingConstant (s : LState nx Inp) : Option ℝ := s.toFilter.logNormalizingConstant

/-- What `dummy_tree_like` (`cuthbert/utils.py:9-32`) returns for arrays of the shapes used here. -/
structure Dummies (nx : ℕ) where
  vec : Fin nx → ℝ
  mat : Matrix (Fin nx) (Fin nx) ℝ

/-- `cuthbert/gaussian/utils.py:9-41`, `linearized_kalman_filter_state_dummy_elem`. A NaN mean makes the whole
element `none`. -/
def dummyElem (D : Dummies nx) (mean : Option (Fin nx → ℝ)) (cholCov : Matrix (Fin nx) (Fin nx) ℝ)
    (ell : Option ℝ) (u : Inp) (meanPrev : Option (Fin nx → ℝ)) : LState nx Inp where
  elem := mean.map fun m => { A := D.mat, b := m, U := cholCov, eta := D.vec, Z := D.mat, ell := ell }
  modelInputs := u
  meanPrev := meanPrev

/-- The initial scan element, `cuthbert/gaussian/moments/associative_filter.py:35-46`. -/
def priorElem (m0 : Fin nx → ℝ) (cholP0 : Matrix (Fin nx) (Fin nx) ℝ) : Kalman.FilterElem nx :=
  { A := 0, b := m0, U := cholP0, eta := 0, Z := 0, ell := some 0 }

/-- A state with NaN everywhere but in its inputs. -/
def nanState (u : Inp) (meanPrev : Option (Fin nx → ℝ)) : LState nx Inp := ⟨none, u, meanPrev⟩

/-- `cuthbert/gaussian/taylor/associative_filter.py:167-196` and
`cuthbert/gaussian/moments/associative_filter.py:122-151`, `filter_combine` (identical). -/
def assocCombine (qr : QR) (s₁ s₂ : LState nx Inp) : LState nx Inp where
  elem := (Kalman.filterCombine qr s₁.toFilter s₂.toFilter).elem
  modelInputs := s₂.modelInputs
  meanPrev := s₁.mean

/-- The predict step shared by the non-associative filters
(`cuthbert/gaussian/moments/non_associative_filter.py:116-125`,
`cuthbert/gaussian/taylor/non_associative_filter.py:197-207`); `dyn` is `none` if a parameter is NaN. -/
def predictState (qr : QR) (D : Dummies nx) (s₁ : LState nx Inp) (u : Inp)
    (dyn : Option (Matrix (Fin nx) (Fin nx) ℝ × (Fin nx → ℝ) × Matrix (Fin nx) (Fin nx) ℝ)) :
    LState nx Inp :=
  match s₁.mean, s₁.cholCov, dyn with
  | some m, some L, some (F, c, cholQ) =>
    let pr := Kalman.predict qr m L F c cholQ
    dummyElem D (some pr.1) pr.2 s₁.logNormalizingConstant u s₁.mean
  | _, _, _ => nanState u s₁.mean

/-- Observation parameters as `filtering.update` and `associative_params_single` receive them. -/
structure ObsParams (nx ny : ℕ) where
  H : Matrix (Fin ny) (Fin nx) ℝ
  d : Fin ny → ℝ
  cholR : Matrix (Fin ny) (Fin ny) ℝ
  y : Fin ny → Option ℝ

/-- The update step shared by the non-associative filters
(`cuthbert/gaussian/moments/non_associative_filter.py:134-145`,
`cuthbert/gaussian/taylor/non_associative_filter.py:217-228`); `obs` is `none` if a parameter of an observed
component is NaN. -/
def updateState (qr : QR) (D : Dummies nx) (s₁ predict : LState nx Inp) (u : Inp)
    (obs : Option (ObsParams nx ny)) : LState nx Inp :=
  match predict.mean, predict.cholCov, obs with
  | some m, some L, some o =>
    let up := Kalman.update qr m L o.H o.d o.cholR o.y
    dummyElem D up.mean up.chol (do return (← s₁.logNormalizingConstant) + (← up.ell)) u s₁.mean
  | _, _, _ => nanState u s₁.mean

/-! ## `cuthbert/gaussian/moments` -/

/-- The callbacks of `cuthbert/gaussian/moments/filter.py:27-32`, `build_filter`. -/
structure MCallbacks (nx ny : ℕ) (Inp : Type*) where
  getInit : Inp → (Fin nx → ℝ) × Matrix (Fin nx) (Fin nx) ℝ
  getDynamics : LState nx Inp → Inp → MomentsFn nx nx × (Fin nx → ℝ)
  getObservation : LState nx Inp → Inp → MomentsFn nx ny × (Fin nx → ℝ) × (Fin ny → Option ℝ)

/-- `cuthbert/gaussian/moments/associative_filter.py:15-48` and `non_associative_filter.py:15-48`,
`init_prepare` (identical). -/
def mInit (D : Dummies nx) (cb : MCallbacks nx ny Inp) (u : Inp) : LState nx Inp :=
  ⟨some (priorElem (cb.getInit u).1 (cb.getInit u).2), u, some D.vec⟩

/-- The dummy state handed to the callbacks at `cuthbert/gaussian/moments/associative_filter.py:86-97` and
`cuthbert/gaussian/taylor/associative_filter.py:118-129`. -/
def dummyState (D : Dummies nx) (u : Inp) : LState nx Inp :=
  ⟨some { A := D.mat, b := D.vec, U := D.mat, eta := D.vec, Z := D.mat, ell := some 0 }, u, some D.vec⟩

/-- Linearised dynamics, `cuthbert/gaussian/moments/associative_filter.py:99-104`,
`non_associative_filter.py:109-114`. -/
def mDynamics (cb : MCallbacks nx ny Inp) (s : LState nx Inp) (u : Inp) :
    Matrix (Fin nx) (Fin nx) ℝ × (Fin nx → ℝ) × Matrix (Fin nx) (Fin nx) ℝ :=
  linearizeMoments (cb.getDynamics s u).1 (cb.getDynamics s u).2

/-- Linearised observation model, `cuthbert/gaussian/moments/associative_filter.py:106-111`,
`non_associative_filter.py:127-132`. -/
def mObservation (cb : MCallbacks nx ny Inp) (s : LState nx Inp) (u : Inp) : ObsParams nx ny :=
  let (f, x, y) := cb.getObservation s u
  let (H, d, cholR) := linearizeMoments f x
  ⟨H, d, cholR, y⟩

/-- `cuthbert/gaussian/moments/associative_filter.py:51-119`, `filter_prepare`. -/
def mPrepareAssoc (qr : QR) (D : Dummies nx) (cb : MCallbacks nx ny Inp) (u : Inp) : LState nx Inp :=
  let (F, c, cholQ) := mDynamics cb (dummyState D u) u
  let o := mObservation cb (dummyState D u) u
  ⟨Kalman.filterParams qr F c cholQ o.H o.d o.cholR o.y, u, some D.vec⟩

/-- `cuthbert/gaussian/moments/non_associative_filter.py:51-80` and
`cuthbert/gaussian/taylor/non_associative_filter.py:107-136`, `filter_prepare`. -/
def prepareNonAssoc (D : Dummies nx) (u : Inp) : LState nx Inp :=
  dummyElem D (some D.vec) D.mat (some 0) u (some D.vec)

/-- `cuthbert/gaussian/moments/non_associative_filter.py:83-145`, `filter_combine`. -/
def mCombineNonAssoc (qr : QR) (D : Dummies nx) (cb : MCallbacks nx ny Inp) (s₁ s₂ : LState nx Inp) :
    LState nx Inp :=
  let pr := predictState qr D s₁ s₂.modelInputs (some (mDynamics cb s₁ s₂.modelInputs))
  updateState qr D s₁ pr s₂.modelInputs (some (mObservation cb pr s₂.modelInputs))

/-- `cuthbert/gaussian/moments/filter.py:27-90`, `build_filter`. -/
def buildMomentsFilter (qr : QR) (D : Dummies nx) (cb : MCallbacks nx ny Inp) (associative : Bool) :
    FilterObj Inp K (LState nx Inp) :=
  if associative then
    { initPrepare := fun u _ => mInit D cb u
      filterPrepare := fun u _ => mPrepareAssoc qr D cb u
      filterCombine := assocCombine qr
      associative := true }
  else
    { initPrepare := fun u _ => mInit D cb u
      filterPrepare := fun u _ => prepareNonAssoc D u
      filterCombine := mCombineNonAssoc qr D cb
      associative := false }

/-- The smoother state built at `cuthbert/gaussian/moments/smoother.py:110-118` and
`cuthbert/gaussian/taylor/smoother.py:150-158`; `dyn` is `none` if a parameter is NaN. -/
def smootherStateOf (qr : QR) (opts : Kalman.SmootherOpts nx Inp) (s : LState nx Inp) (u : Inp)
    (dyn : Option (Matrix (Fin nx) (Fin nx) ℝ × (Fin nx → ℝ) × Matrix (Fin nx) (Fin nx) ℝ)) :
    Kalman.SmootherState nx Inp :=
  let state := s.mean.bind fun m => s.cholCov.bind fun L => dyn.bind fun p =>
    Kalman.smootherParams qr m L p.1 p.2.1 p.2.2
  { elem := state
    modelInputs := u
    gain := if opts.storeGain then some (state.map (·.E)) else none
    cholCovGivenNext := if opts.storeCholCovGivenNext then some (state.map (·.D)) else none }

/-- `cuthbert/gaussian/moments/smoother.py:37-118`, `build_smoother` and `smoother_prepare`. -/
def buildMomentsSmoother (qr : QR) (getDynamics : LState nx Inp → Inp → MomentsFn nx nx × (Fin nx → ℝ))
    (opts : Kalman.SmootherOpts nx Inp) :
    SmootherObj Inp K (LState nx Inp) (Kalman.SmootherState nx Inp) where
  convert s u _ := Kalman.convert opts s.toFilter u
  smootherPrepare s u _ := smootherStateOf qr opts s u
    (some (linearizeMoments (getDynamics s u).1 (getDynamics s u).2))
  smootherCombine := Kalman.smootherCombine qr
  associative := true

/-! ## `cuthbert/gaussian/taylor` -/

/-- What `get_observation_func` returns (`cuthbert/gaussian/taylor/types.py`): a conditional log density with
the points `x` and `y`, or a log potential with the point `x`. -/
inductive ObsOutput (nx ny : ℕ) where
  | density (p : CondDensity nx ny) (x : Fin nx → Option ℝ) (y : Fin ny → Option ℝ)
  | potential (p : Potential nx) (x : Fin nx → Option ℝ)

/-- The callbacks and options of `cuthbert/gaussian/taylor/filter.py:41-48`, `build_filter`. -/
structure TCallbacks (nx ny : ℕ) (Inp : Type*) where
  getInit : Inp → Potential nx × (Fin nx → Option ℝ)
  getDynamics : LState nx Inp → Inp → CondDensity nx nx × (Fin nx → Option ℝ) × (Fin nx → Option ℝ)
  getObservation : LState nx Inp → Inp → ObsOutput nx ny
  rtol : ℝ
  ignoreNanDims : Bool

/-- Real matrices if no entry is NaN. -/
def finite {a b : ℕ} (A : Fin a → Fin b → Option ℝ) : Option (Matrix (Fin a) (Fin b) ℝ) :=
  if ∀ i j, (A i j).isNone = false then some (Matrix.of fun i j => (A i j).getD 0) else none

/-- A real vector if no entry is NaN. -/
def finiteVec {a : ℕ} (v : Fin a → Option ℝ) : Option (Fin a → ℝ) :=
  if ∀ i, (v i).isNone = false then some (fun i => (v i).getD 0) else none

/-- The observation parameters as numbers. `collect_nans_chol` overwrites the rows of missing components
(`cuthbertlib/kalman/filtering.py:86-91, 140-145`), so NaNs there do not matter and are read as 0; a NaN in
any other row makes the result NaN. -/
def finiteObs (H : Fin ny → Fin nx → Option ℝ) (d : Fin ny → Option ℝ) (cholR : NMat ny)
    (y : Fin ny → Option ℝ) : Option (ObsParams nx ny) :=
  if ∀ i, (y i).isNone = false →
      (∀ j, (H i j).isNone = false) ∧ (d i).isNone = false ∧ ∀ j, (cholR i j).isNone = false then
    some { H := Matrix.of fun i j => (H i j).getD 0, d := fun i => (d i).getD 0,
           cholR := Matrix.of fun i j => (cholR i j).getD 0, y := y }
  else none

/-- `cuthbert/gaussian/taylor/non_associative_filter.py:21-38`, `process_observation` for a conditional
density. -/
def processDensity (qr : QR) (svd : SVD) (rtol : ℝ) (ignoreNanDims : Bool) (p : CondDensity nx ny)
    (x : Fin nx → Option ℝ) (y : Fin ny → Option ℝ) : Option (ObsParams nx ny) :=
  let (H, d, cholR) := linearizeLogDensity qr svd rtol ignoreNanDims p x y
  finiteObs H d cholR y

/-- `cuthbert/gaussian/taylor/non_associative_filter.py:39-54`, `process_observation` for a log potential. -/
def processPotential (qr : QR) (svd : SVD) (rtol : ℝ) (ignoreNanDims : Bool) (p : Potential nx)
    (x : Fin nx → Option ℝ) : Option (ObsParams nx nx) :=
  -- 41-46
  let (d, cholR) := linearizeTaylor qr svd rtol ignoreNanDims p x
  -- 50
  let H : Matrix (Fin nx) (Fin nx) ℝ := -1
  -- 51-53
  let y := fun i => if (cholR i i).isNone && ignoreNanDims then none else some 0
  finiteObs (fun i j => some (H i j)) d cholR y

/-- `skip_predict_flag`, `cuthbert/gaussian/taylor/non_associative_filter.py:189-192`. -/
def skipPredict (xCurr xPrev : Fin nx → Option ℝ) : Prop := (∀ i, xCurr i = none) ∧ ∀ i, xPrev i = none

/-- `cuthbert/gaussian/taylor/associative_filter.py:131-149`, `non_associative_filter.py:176-195`. -/
def tDynamics (qr : QR) (svd : SVD) (cb : TCallbacks nx ny Inp) (s : LState nx Inp) (u : Inp) :
    Option (Matrix (Fin nx) (Fin nx) ℝ × (Fin nx → ℝ) × Matrix (Fin nx) (Fin nx) ℝ) :=
  let (p, xPrev, xCurr) := cb.getDynamics s u
  let (F, c, cholQ) := linearizeLogDensity qr svd cb.rtol cb.ignoreNanDims p xPrev xCurr
  open Classical in
  if skipPredict xCurr xPrev then some (1, 0, 0)
  else do return (← finite F, ← finiteVec c, ← finite cholQ)

/-- `cuthbert/gaussian/taylor/associative_filter.py:19-71` and `non_associative_filter.py:57-104`,
`init_prepare`. They differ in the unused fields of the element, which are dummies in the latter. -/
def tInitParams (qr : QR) (svd : SVD) (cb : TCallbacks nx ny Inp) (u : Inp) :
    Option ((Fin nx → ℝ) × Matrix (Fin nx) (Fin nx) ℝ) :=
  let (p, x) := cb.getInit u
  -- `lambda _, x: init_log_density(x)`
  let q : CondDensity nx nx :=
    { value := fun _ y => p.value fun i => (y i).getD 0
      grad := fun _ y => p.grad y
      hess := fun _ y => p.hess y
      jac := fun _ _ _ _ => some 0 }
  let (_, m0, cholP0) := linearizeLogDensity qr svd cb.rtol cb.ignoreNanDims q x x
  do return (← finiteVec m0, ← finite cholP0)

/-- `cuthbert/gaussian/taylor/associative_filter.py:59-71`. -/
def tInitAssoc (qr : QR) (svd : SVD) (D : Dummies nx) (cb : TCallbacks nx ny Inp) (u : Inp) :
    LState nx Inp :=
  ⟨(tInitParams qr svd cb u).map fun p => priorElem p.1 p.2, u, some D.vec⟩

/-- `cuthbert/gaussian/taylor/non_associative_filter.py:97-104`. -/
def tInitNonAssoc (qr : QR) (svd : SVD) (D : Dummies nx) (cb : TCallbacks nx ny Inp) (u : Inp) :
    LState nx Inp :=
  match tInitParams qr svd cb u with
  | some (m, L) => dummyElem D (some m) L (some 0) u (some D.vec)
  | none => nanState u (some D.vec)

/-- `cuthbert/gaussian/taylor/associative_filter.py:74-164`, `filter_prepare`. -/
def tPrepareAssoc (qr : QR) (svd : SVD) (D : Dummies nx) (cb : TCallbacks nx ny Inp) (u : Inp) :
    LState nx Inp :=
  let dyn := tDynamics qr svd cb (dummyState D u) u
  let elem := dyn.bind fun dp =>
    match cb.getObservation (dummyState D u) u with
    | .density p x y => (processDensity qr svd cb.rtol cb.ignoreNanDims p x y).bind fun o =>
      Kalman.filterParams qr dp.1 dp.2.1 dp.2.2 o.H o.d o.cholR o.y
    | .potential p x => (processPotential qr svd cb.rtol cb.ignoreNanDims p x).bind fun o =>
      Kalman.filterParams qr dp.1 dp.2.1 dp.2.2 o.H o.d o.cholR o.y
  ⟨elem, u, some D.vec⟩

/-- `cuthbert/gaussian/taylor/non_associative_filter.py:139-228`, `filter_combine`. -/
def tCombineNonAssoc (qr : QR) (svd : SVD) (D : Dummies nx) (cb : TCallbacks nx ny Inp)
    (s₁ s₂ : LState nx Inp) : LState nx Inp :=
  let pr := predictState qr D s₁ s₂.modelInputs (tDynamics qr svd cb s₁ s₂.modelInputs)
  match cb.getObservation pr s₂.modelInputs with
  | .density p x y => updateState qr D s₁ pr s₂.modelInputs
    (processDensity qr svd cb.rtol cb.ignoreNanDims p x y)
  | .potential p x => updateState qr D s₁ pr s₂.modelInputs
    (processPotential qr svd cb.rtol cb.ignoreNanDims p x)

/-- `cuthbert/gaussian/taylor/filter.py:41-127`, `build_filter`. -/
def buildTaylorFilter (qr : QR) (svd : SVD) (D : Dummies nx) (cb : TCallbacks nx ny Inp)
    (associative : Bool) : FilterObj Inp K (LState nx Inp) :=
  if associative then
    { initPrepare := fun u _ => tInitAssoc qr svd D cb u
      filterPrepare := fun u _ => tPrepareAssoc qr svd D cb u
      filterCombine := assocCombine qr
      associative := true }
  else
    { initPrepare := fun u _ => tInitNonAssoc qr svd D cb u
      filterPrepare := fun u _ => prepareNonAssoc D u
      filterCombine := tCombineNonAssoc qr svd D cb
      associative := false }

/-- `cuthbert/gaussian/taylor/smoother.py:51-158`, `build_smoother` and `smoother_prepare`. There is no
`skip_predict_flag` here. -/
def buildTaylorSmoother (qr : QR) (svd : SVD) (rtol : ℝ) (ignoreNanDims : Bool)
    (getDynamics : LState nx Inp → Inp → CondDensity nx nx × (Fin nx → Option ℝ) × (Fin nx → Option ℝ))
    (opts : Kalman.SmootherOpts nx Inp) :
    SmootherObj Inp K (LState nx Inp) (Kalman.SmootherState nx Inp) where
  convert s u _ := Kalman.convert opts s.toFilter u
  smootherPrepare s u _ :=
    let (p, xPrev, xCurr) := getDynamics s u
    let (F, c, cholQ) := linearizeLogDensity qr svd rtol ignoreNanDims p xPrev xCurr
    smootherStateOf qr opts s u (do return (← finite F, ← finiteVec c, ← finite cholQ))
  smootherCombine := Kalman.smootherCombine qr
  associative := true

end

end Cuthbert.Linearize
