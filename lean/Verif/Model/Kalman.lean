import Verif.Model.Stats

/-!
# Kalman filtering and smoothing

Models `cuthbertlib/kalman/filtering.py`, `cuthbertlib/kalman/smoothing.py`,
`cuthbertlib/kalman/sampling.py` and `cuthbert/gaussian/kalman.py`. Parameters of the model are real
arrays; a NaN component of an observation is `none`. An array that the code would fill with non-finite
numbers (division by a zero pivot) is `none`.
-/

namespace Cuthbert.Kalman
open Matrix Cuthbert

noncomputable section

variable {nx ny : ℕ} {Inp K : Type*}

/-- `cuthbertlib/kalman/filtering.py:25-53`, `predict`. -/
def predict {nx' : ℕ} (qr : QR) (m : Fin nx → ℝ) (cholP : Matrix (Fin nx) (Fin nx) ℝ)
    (F : Matrix (Fin nx') (Fin nx) ℝ) (c : Fin nx' → ℝ) (cholQ : Matrix (Fin nx') (Fin nx') ℝ) :
    (Fin nx' → ℝ) × Matrix (Fin nx') (Fin nx') ℝ :=
  -- 50
  let m1 := F *ᵥ m + c
  -- 51-52
  let A := hcat (F * cholP) cholQ
  (m1, triaSq qr A (Nat.le_add_left _ _))

/-- What `update` returns: `((my, chol_Py), ell)`. -/
structure UpdateResult (nx : ℕ) where
  mean : Option (Fin nx → ℝ)
  chol : Matrix (Fin nx) (Fin nx) ℝ
  ell : Option ℝ

/-- The observation model after `collect_nans_chol(flag, chol_R, H, d, y)` with `flag = isnan(y)`
(`cuthbertlib/kalman/filtering.py:86-87` and `134-135`). -/
structure Collected (nx ny : ℕ) where
  H : Matrix (Fin ny) (Fin nx) ℝ
  d : Fin ny → ℝ
  cholR : Matrix (Fin ny) (Fin ny) ℝ
  y : Fin ny → ℝ

/-- `cuthbertlib/kalman/filtering.py:86-87` and `134-135`. -/
def collect (qr : QR) (H : Matrix (Fin ny) (Fin nx) ℝ) (d : Fin ny → ℝ)
    (cholR : Matrix (Fin ny) (Fin ny) ℝ) (y : Fin ny → Option ℝ) : Collected nx ny where
  H := Matrix.of (collectRest (isNan y) fun i j => H i j)
  d := collectRest (isNan y) d
  cholR := collectMat qr (isNan y) cholR
  y := collectRest (isNan y) fun i => (y i).getD 0

/-- `cuthbertlib/kalman/filtering.py:57-113`, `update`. -/
def update (qr : QR) (m : Fin nx → ℝ) (cholP : Matrix (Fin nx) (Fin nx) ℝ)
    (H : Matrix (Fin ny) (Fin nx) ℝ) (d : Fin ny → ℝ) (cholR : Matrix (Fin ny) (Fin ny) ℝ)
    (y : Fin ny → Option ℝ) (logNormalizingConstant : Option ℝ := some 0) : UpdateResult nx :=
  -- 86-91
  let o := collect qr H d cholR y
  -- 95-96
  let yHat := o.H *ᵥ m + o.d
  let yDiff := o.y - yHat
  -- 98-104
  let M := block (o.H * cholP) o.cholR cholP 0
  let cholS := triaSq qr M (Nat.add_comm _ _).le
  -- 105-108
  let cholPy := bottomRight cholS
  let Gmat := bottomLeft cholS
  let Imat := topLeft cholS
  { -- 110
    mean := (solveLowerVec Imat yDiff).map fun v => m + Gmat *ᵥ v
    chol := cholPy
    -- 112-113
    ell := do
      let l ← logpdfMat o.y yHat Imat
      let l₀ ← logNormalizingConstant
      return l + l₀ }

/-- `cuthbertlib/kalman/filtering.py:14-22`, `FilterScanElement`. -/
structure FilterElem (nx : ℕ) where
  A : Matrix (Fin nx) (Fin nx) ℝ
  b : Fin nx → ℝ
  U : Matrix (Fin nx) (Fin nx) ℝ
  eta : Fin nx → ℝ
  Z : Matrix (Fin nx) (Fin nx) ℝ
  ell : Option ℝ

/-- `cuthbertlib/kalman/filtering.py:163-166`: bring `Z` to a square shape. -/
def squareZ (qr : QR) (Z : Matrix (Fin nx) (Fin ny) ℝ) : Matrix (Fin nx) (Fin nx) ℝ :=
  if h : ny < nx then Matrix.of fun i j => if hj : j.val < ny then Z i ⟨j.val, hj⟩ else 0
  else triaSq qr Z (not_lt.mp h)

/-- `cuthbertlib/kalman/filtering.py:116-173`, `associative_params_single`. Simplification: when `Psi11`
is singular the model returns `none` for the whole element, although `U` is still finite in the code. -/
def filterParams (qr : QR) (F : Matrix (Fin nx) (Fin nx) ℝ) (c : Fin nx → ℝ)
    (cholQ : Matrix (Fin nx) (Fin nx) ℝ) (H : Matrix (Fin ny) (Fin nx) ℝ) (d : Fin ny → ℝ)
    (cholR : Matrix (Fin ny) (Fin ny) ℝ) (y : Fin ny → Option ℝ) : Option (FilterElem nx) :=
  -- 134-135
  let o := collect qr H d cholR y
  -- 140-146
  let Psi := block (o.H * cholQ) o.cholR cholQ 0
  let triaPsi := triaSq qr Psi (Nat.add_comm _ _).le
  let Psi11 := topLeft triaPsi
  let Psi21 := bottomLeft triaPsi
  let U := bottomRight triaPsi
  -- 149
  (solveLower Psi11 (1 : Matrix (Fin ny) (Fin ny) ℝ)).map fun Psi11inv =>
  -- 152-154
  let K := Psi21 * Psi11inv
  let HF := o.H * F
  let A := F - K * HF
  -- 156
  let b := c + K *ᵥ (o.y - o.H *ᵥ c - o.d)
  -- 159-161
  let Z := HFᵀ * Psi11invᵀ
  let eta := Z *ᵥ (Psi11inv *ᵥ (o.y - o.H *ᵥ c - o.d))
  { A, b, U, eta
    -- 163-166
    Z := squareZ qr Z
    -- 169-171
    ell := logpdfMat o.y (o.H *ᵥ c + o.d) Psi11 }

/-- `jnp.linalg.slogdet(D)[1]`; minus infinity for a singular matrix is `none`. -/
def slogdet (D : Matrix (Fin nx) (Fin nx) ℝ) : Option ℝ :=
  open Classical in if D.det = 0 then none else some (Real.log |D.det|)

/-- `cuthbertlib/kalman/filtering.py:176-213`, `filtering_operator`. -/
def filteringOperator (qr : QR) (e₁ e₂ : FilterElem nx) : Option (FilterElem nx) :=
  -- 193-197
  let Xi := block (e₁.Uᵀ * e₂.Z) 1 e₂.Z 0
  let triaXi := triaSq qr Xi le_rfl
  let Xi11 := topLeft triaXi
  let Xi21 := bottomLeft triaXi
  let Xi22 := bottomRight triaXi
  -- 199
  (solveLower Xi11 e₁.Uᵀ).map fun t =>
  let tmp1 := tᵀ
  -- 200-201
  let Dinv := 1 - tmp1 * Xi21ᵀ
  let tmp2 := Dinv *ᵥ (e₁.b + e₁.U *ᵥ (e₁.Uᵀ *ᵥ e₂.eta))
  { -- 203-204
    A := e₂.A * Dinv * e₁.A
    b := e₂.A *ᵥ tmp2 + e₂.b
    -- 205
    U := triaSq qr (hcat (e₂.A * tmp1) e₂.U) (Nat.le_add_left _ _)
    -- 206
    eta := e₁.Aᵀ *ᵥ (Dinvᵀ *ᵥ (e₂.eta - e₂.Z *ᵥ (e₂.Zᵀ *ᵥ e₁.b))) + e₁.eta
    -- 207
    Z := triaSq qr (hcat (e₁.Aᵀ * Xi22) e₁.Z) (Nat.le_add_left _ _)
    -- 209-211
    ell := do
      let mu ← choSolve e₁.U e₁.b
      let t1 := e₁.b ⬝ᵥ mu - (e₂.eta + mu) ⬝ᵥ tmp2
      let l₁ ← e₁.ell
      let l₂ ← e₂.ell
      let ld ← slogdet Dinv
      return l₁ + l₂ - 1 / 2 * t1 + 1 / 2 * ld }

/-- `cuthbertlib/kalman/smoothing.py:22-66`, `update`: `((mean, chol), gain)`. -/
def smootherUpdate (qr : QR) (filterM : Fin nx → ℝ) (filterCholP : Matrix (Fin nx) (Fin nx) ℝ)
    (smootherM : Fin nx → ℝ) (smootherCholP : Matrix (Fin nx) (Fin nx) ℝ)
    (F : Matrix (Fin nx) (Fin nx) ℝ) (c : Fin nx → ℝ) (cholQ : Matrix (Fin nx) (Fin nx) ℝ) :
    Option (((Fin nx → ℝ) × Matrix (Fin nx) (Fin nx) ℝ) × Matrix (Fin nx) (Fin nx) ℝ) :=
  -- 56-60
  let Phi := block (F * filterCholP) cholQ filterCholP 0
  let triaPhi := triaSq qr Phi le_rfl
  let Phi11 := topLeft triaPhi
  let Phi21 := bottomLeft triaPhi
  let Phi22 := bottomRight triaPhi
  -- 61: solves `Phi11ᵀ X = Phi21ᵀ`
  (solveLowerTrans Phi11 Phi21ᵀ).map fun X =>
  let gain := Xᵀ
  -- 63-65
  let meanDiff := smootherM - (c + F *ᵥ filterM)
  let mean := filterM + gain *ᵥ meanDiff
  let chol := triaSq qr (hcat Phi22 (gain * smootherCholP)) (Nat.le_add_left _ _)
  ((mean, chol), gain)
where
  /-- `solve_triangular(L, B, trans=True, lower=True)`. -/
  solveLowerTrans {m : Type} {n : ℕ} (L : Matrix (Fin n) (Fin n) ℝ) (B : Matrix (Fin n) m ℝ) :
      Option (Matrix (Fin n) m ℝ) :=
    open Classical in if ∀ i, L i i ≠ 0 then some ((lowerPart L)ᵀ⁻¹ * B) else none

/-- `solve_triangular(A, B)` with the default `lower=False`: reads the upper triangle of `A`. -/
def solveUpper {m : Type} {n : ℕ} (A : Matrix (Fin n) (Fin n) ℝ) (B : Matrix (Fin n) m ℝ) :
    Option (Matrix (Fin n) m ℝ) :=
  open Classical in if ∀ i, A i i ≠ 0 then
    some ((Matrix.of fun i j => if i ≤ j then A i j else 0)⁻¹ * B) else none

/-- `cuthbertlib/kalman/smoothing.py:13-18`, `SmootherScanElement`. -/
structure SmootherElem (nx : ℕ) where
  g : Fin nx → ℝ
  E : Matrix (Fin nx) (Fin nx) ℝ
  D : Matrix (Fin nx) (Fin nx) ℝ

/-- `cuthbertlib/kalman/smoothing.py:69-99`, `associative_params_single`. Simplification: `none` for the
whole element when `Phi11` is singular, although `D` is still finite in the code. -/
def smootherParams (qr : QR) (m : Fin nx → ℝ) (cholP F : Matrix (Fin nx) (Fin nx) ℝ)
    (c : Fin nx → ℝ) (cholQ : Matrix (Fin nx) (Fin nx) ℝ) : Option (SmootherElem nx) :=
  -- 91-95
  let Phi := block (F * cholP) cholQ cholP 0
  let triaPhi := triaSq qr Phi le_rfl
  let Phi11 := topLeft triaPhi
  let Phi21 := bottomLeft triaPhi
  let D := bottomRight triaPhi
  -- 97
  (solveUpper Phi11ᵀ Phi21ᵀ).map fun X =>
  let E := Xᵀ
  -- 98
  let g := m - E *ᵥ (F *ᵥ m + c)
  { g, E, D }

/-- `cuthbertlib/kalman/smoothing.py:102-121`, `smoothing_operator`. -/
def smoothingOperator (qr : QR) (ei ej : SmootherElem nx) : SmootherElem nx where
  g := ej.E *ᵥ ei.g + ej.g
  E := ej.E * ei.E
  D := triaSq qr (hcat (ej.E * ei.D) ej.D) (Nat.le_add_left _ _)

/-! ## `cuthbert/gaussian/kalman.py` -/

/-- `cuthbert/gaussian/kalman.py:23-42`, `KalmanFilterState`. -/
structure FilterState (nx : ℕ) (Inp : Type*) where
  elem : Option (FilterElem nx)
  modelInputs : Inp

/-- `cuthbert/gaussian/kalman.py:29-32`, `mean`. -/
def FilterState.mean (s : FilterState nx Inp) : Option (Fin nx → ℝ) := s.elem.map (·.b)

/-- `cuthbert/gaussian/kalman.py:34-37`, `chol_cov`. -/
def FilterState.cholCov (s : FilterState nx Inp) : Option (Matrix (Fin nx) (Fin nx) ℝ) :=
  s.elem.map (·.U)

/-- `cuthbert/gaussian/kalman.py:39-42`, `log_normalizing_constant`. -/
def FilterState.logNormalizingConstant (s : FilterState nx Inp) : Option ℝ := s.elem.bind (·.ell)

/-- The three parameter callbacks of `build_filter`
(`cuthbert/gaussian/kalman.py:64-83`, `cuthbert/gaussian/types.py`). -/
structure Callbacks (nx ny : ℕ) (Inp : Type*) where
  getInit : Inp → (Fin nx → ℝ) × Matrix (Fin nx) (Fin nx) ℝ
  getDynamics : Inp → Matrix (Fin nx) (Fin nx) ℝ × (Fin nx → ℝ) × Matrix (Fin nx) (Fin nx) ℝ
  getObservation : Inp → Matrix (Fin ny) (Fin nx) ℝ × (Fin ny → ℝ) × Matrix (Fin ny) (Fin ny) ℝ ×
    (Fin ny → Option ℝ)

/-- `cuthbert/gaussian/kalman.py:134-160`, `init_prepare`. -/
def initPrepare (cb : Callbacks nx ny Inp) (u : Inp) : FilterState nx Inp :=
  let (m0, cholP0) := cb.getInit u
  { elem := some { A := 0, b := m0, U := cholP0, eta := 0, Z := 0, ell := some 0 }
    modelInputs := u }

/-- `cuthbert/gaussian/kalman.py:163-184`, `filter_prepare`. -/
def filterPrepare (qr : QR) (cb : Callbacks nx ny Inp) (u : Inp) : FilterState nx Inp :=
  let (F, c, cholQ) := cb.getDynamics u
  let (H, d, cholR, y) := cb.getObservation u
  { elem := filterParams qr F c cholQ H d cholR y, modelInputs := u }

/-- `cuthbert/gaussian/kalman.py:187-209`, `filter_combine`. -/
def filterCombine (qr : QR) (s₁ s₂ : FilterState nx Inp) : FilterState nx Inp where
  elem := do
    let e₁ ← s₁.elem
    let e₂ ← s₂.elem
    filteringOperator qr e₁ e₂
  modelInputs := s₂.modelInputs

/-- `cuthbert/gaussian/kalman.py:64-96`, `build_filter`. -/
def buildFilter (qr : QR) (cb : Callbacks nx ny Inp) : FilterObj Inp K (FilterState nx Inp) where
  initPrepare u _ := initPrepare cb u
  filterPrepare u _ := filterPrepare qr cb u
  filterCombine := filterCombine qr
  associative := true

/-- `cuthbert/gaussian/kalman.py:45-61`, `KalmanSmootherState`. In `gain` and `cholCovGivenNext` the outer
`none` is Python's `None` (not stored), the inner one a non-finite array. -/
structure SmootherState (nx : ℕ) (Inp : Type*) where
  elem : Option (SmootherElem nx)
  modelInputs : Inp
  gain : Option (Option (Matrix (Fin nx) (Fin nx) ℝ))
  cholCovGivenNext : Option (Option (Matrix (Fin nx) (Fin nx) ℝ))

/-- `cuthbert/gaussian/kalman.py:53-56`, `mean`. -/
def SmootherState.mean (s : SmootherState nx Inp) : Option (Fin nx → ℝ) := s.elem.map (·.g)

/-- `cuthbert/gaussian/kalman.py:58-61`, `chol_cov`. -/
def SmootherState.cholCov (s : SmootherState nx Inp) : Option (Matrix (Fin nx) (Fin nx) ℝ) :=
  s.elem.map (·.D)

/-- The options of `build_smoother` and what `dummy_tree_like` returns for model inputs and for an
`nx x nx` float array (`cuthbert/utils.py:9-32`). -/
structure SmootherOpts (nx : ℕ) (Inp : Type*) where
  storeGain : Bool
  storeCholCovGivenNext : Bool
  dummy : Inp → Inp
  dummyMat : Matrix (Fin nx) (Fin nx) ℝ

/-- `cuthbert/gaussian/kalman.py:212-251`, `smoother_prepare`. -/
def smootherPrepare (qr : QR)
    (getDynamics : Inp → Matrix (Fin nx) (Fin nx) ℝ × (Fin nx → ℝ) × Matrix (Fin nx) (Fin nx) ℝ)
    (opts : SmootherOpts nx Inp) (s : FilterState nx Inp) (u : Inp) : SmootherState nx Inp :=
  let (F, c, cholQ) := getDynamics u
  let state := do
    let m ← s.mean
    let L ← s.cholCov
    smootherParams qr m L F c cholQ
  { elem := state
    modelInputs := u
    gain := if opts.storeGain then some (state.map (·.E)) else none
    cholCovGivenNext := if opts.storeCholCovGivenNext then some (state.map (·.D)) else none }

/-- `cuthbert/gaussian/kalman.py:254-283`, `smoother_combine`. -/
def smootherCombine (qr : QR) (s₁ s₂ : SmootherState nx Inp) : SmootherState nx Inp where
  elem := do
    let e₂ ← s₂.elem
    let e₁ ← s₁.elem
    return smoothingOperator qr e₂ e₁
  modelInputs := s₁.modelInputs
  gain := s₁.gain
  cholCovGivenNext := s₁.cholCovGivenNext

/-- `cuthbert/gaussian/kalman.py:286-331`, `convert_filter_to_smoother_state`. -/
def convert (opts : SmootherOpts nx Inp) (s : FilterState nx Inp) (u : Inp) :
    SmootherState nx Inp where
  elem := do
    let m ← s.mean
    let L ← s.cholCov
    return { g := m, D := L, E := 0 }
  modelInputs := opts.dummy u
  gain := if opts.storeGain then some (some opts.dummyMat) else none
  cholCovGivenNext := if opts.storeCholCovGivenNext then some (some opts.dummyMat) else none

/-- `cuthbert/gaussian/kalman.py:99-131`, `build_smoother`. -/
def buildSmoother (qr : QR)
    (getDynamics : Inp → Matrix (Fin nx) (Fin nx) ℝ × (Fin nx → ℝ) × Matrix (Fin nx) (Fin nx) ℝ)
    (opts : SmootherOpts nx Inp) : SmootherObj Inp K (FilterState nx Inp) (SmootherState nx Inp) where
  convert s u _ := convert opts s u
  smootherPrepare s u _ := smootherPrepare qr getDynamics opts s u
  smootherCombine := smootherCombine qr
  associative := true

/-! ## `cuthbertlib/kalman/sampling.py` -/

/-- `cuthbertlib/kalman/sampling.py:16-20`, `SamplerScanElement`, for `N` draws (a multi-dimensional
`shape` is flattened). -/
structure SamplerElem (nx N : ℕ) where
  gain : Matrix (Fin nx) (Fin nx) ℝ
  sample : Matrix (Fin N) (Fin nx) ℝ

/-- `cuthbertlib/kalman/sampling.py:44-49`, `_sqrt_associative_params_interm`. -/
def samplerInterm (qr : QR) {N : ℕ} (m : Fin nx → ℝ) (cholP F : Matrix (Fin nx) (Fin nx) ℝ)
    (c : Fin nx → ℝ) (cholQ : Matrix (Fin nx) (Fin nx) ℝ) (eps : Matrix (Fin N) (Fin nx) ℝ) :
    Option (SamplerElem nx N) :=
  (smootherParams qr m cholP F c cholQ).map fun e =>
    { gain := e.E, sample := (Matrix.of fun _ => e.g) + eps * e.Dᵀ }

/-- `cuthbertlib/kalman/sampling.py:52-57`, `_sqrt_associative_params_final`. -/
def samplerFinal {N : ℕ} (m : Fin nx → ℝ) (cholP : Matrix (Fin nx) (Fin nx) ℝ)
    (eps : Matrix (Fin N) (Fin nx) ℝ) : SamplerElem nx N where
  gain := 0
  sample := (Matrix.of fun _ => m) + eps * cholPᵀ

/-- `cuthbertlib/kalman/sampling.py:60-68`, `sampling_operator`. -/
def samplingOperator {N : ℕ} (ei ej : SamplerElem nx N) : SamplerElem nx N where
  gain := ej.gain * ei.gain
  sample := ei.sample * ej.gainᵀ + ej.sample

/-- One transition with its filtering marginal, as zipped by the `vmap` at
`cuthbertlib/kalman/sampling.py:35-37`. -/
structure SamplerInput (nx : ℕ) where
  m : Fin nx → ℝ
  cholP : Matrix (Fin nx) (Fin nx) ℝ
  F : Matrix (Fin nx) (Fin nx) ℝ
  c : Fin nx → ℝ
  cholQ : Matrix (Fin nx) (Fin nx) ℝ

/-- `cuthbertlib/kalman/sampling.py:23-41`, `sqrt_associative_params`: `steps` zips
`ms[:-1], chol_Ps[:-1], Fs, cs, chol_Qs` and `mT, cholPT` are the last filtering moments; `eps` are the
standard normal draws of line 34, one matrix per time. -/
def samplerParams (qr : QR) {N : ℕ} (steps : List (SamplerInput nx)) (mT : Fin nx → ℝ)
    (cholPT : Matrix (Fin nx) (Fin nx) ℝ) (eps : List (Matrix (Fin N) (Fin nx) ℝ))
    (epsT : Matrix (Fin N) (Fin nx) ℝ) : List (Option (SamplerElem nx N)) :=
  List.zipWith (fun s e => samplerInterm qr s.m s.cholP s.F s.c s.cholQ e) steps eps ++
    [some (samplerFinal mT cholPT epsT)]

/-- `sampling_operator` (`cuthbertlib/kalman/sampling.py:60-68`) on possibly non-finite elements. -/
def samplingOperatorNan {N : ℕ} : Option (SamplerElem nx N) → Option (SamplerElem nx N) →
    Option (SamplerElem nx N)
  | some ei, some ej => some (samplingOperator ei ej)
  | _, _ => none

/-- The scan for which `cuthbertlib/kalman/sampling.py:1-5` provides elements and operator:
`jax.lax.associative_scan(jax.vmap(sampling_operator), elems, reverse=True)`. The repository leaves this
call to the user. -/
def sampleTrajectories (qr : QR) {N : ℕ} (steps : List (SamplerInput nx)) (mT : Fin nx → ℝ)
    (cholPT : Matrix (Fin nx) (Fin nx) ℝ) (eps : List (Matrix (Fin N) (Fin nx) ℝ))
    (epsT : Matrix (Fin N) (Fin nx) ℝ) : List (Option (SamplerElem nx N)) :=
  associativeScanRev samplingOperatorNan (samplerParams qr steps mT cholPT eps epsT)

end

end Cuthbert.Kalman
