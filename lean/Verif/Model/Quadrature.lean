import Verif.Model.Linalg
import Verif.Model.Fl
import Verif.Model.Scan
import Mathlib.Algebra.BigOperators.Fin
import Mathlib.Probability.Distributions.Gaussian.Real
import Mathlib.LinearAlgebra.Matrix.PosDef

/-!
# Quadrature

Models `cuthbertlib/quadrature/*.py`. `none` stands for a result containing NaN.
-/

namespace Cuthbert.Quadrature
open Matrix

noncomputable section

variable {n nx ny N : ℕ}

/-! ## Sigma points -/

/-- `cuthbertlib/quadrature/common.py:13-36`, `SigmaPoints`. -/
structure SigmaPoints (N n : ℕ) where
  points : Matrix (Fin N) (Fin n) ℝ
  wm : Fin N → ℝ
  wc : Fin N → ℝ

/-- `cuthbertlib/quadrature/common.py:38-45`, `SigmaPoints.mean`. -/
def SigmaPoints.mean (s : SigmaPoints N n) : Fin n → ℝ := s.wm ᵥ* s.points

/-- `cuthbertlib/quadrature/common.py:93-102`, `_cov`. -/
def cov (wc : Fin N → ℝ) (x : Matrix (Fin N) (Fin nx) ℝ) (xMean : Fin nx → ℝ)
    (y : Matrix (Fin N) (Fin ny) ℝ) (yMean : Fin ny → ℝ) : Matrix (Fin nx) (Fin ny) ℝ :=
  let one : Matrix (Fin nx) (Fin N) ℝ := Matrix.of fun i k => (x k i - xMean i) * wc k
  let two : Matrix (Fin N) (Fin ny) ℝ := Matrix.of fun k j => y k j - yMean j
  one * two

/-- `cuthbertlib/quadrature/common.py:48-62`, `SigmaPoints.covariance(other)`; the weights are those of the
first argument. -/
def SigmaPoints.covariance (s : SigmaPoints N nx) (other : SigmaPoints N ny) : Matrix (Fin nx) (Fin ny) ℝ :=
  cov s.wc s.points s.mean other.points other.mean

/-- `cuthbertlib/quadrature/common.py:64-73`, `SigmaPoints.sqrt`. The square root of a negative weight is NaN,
which contaminates the whole result. -/
def SigmaPoints.sqrt (qr : QR) (s : SigmaPoints N n) : Option (Matrix (Fin n) (Fin (min N n)) ℝ) :=
  open Classical in
  if ∀ k, 0 ≤ s.wc k then
    some (tria qr (Matrix.of fun k i => Real.sqrt (s.wc k) * (s.points k i - s.mean i))ᵀ)
  else none

/-- `cuthbertlib/quadrature/common.py:76-90`, `Quadrature`. -/
structure Rule (n N : ℕ) where
  getSigmaPoints : (Fin n → ℝ) → Matrix (Fin n) (Fin n) ℝ → SigmaPoints N n

/-- `cuthbertlib/quadrature/cubature.py:27-51`, `get_sigma_points`. -/
def sigmaPointsOf (m : Fin n → ℝ) (chol : Matrix (Fin n) (Fin n) ℝ) (xi : Matrix (Fin N) (Fin n) ℝ)
    (wm wc : Fin N → ℝ) : SigmaPoints N n :=
  ⟨Matrix.of fun k i => m i + (chol * xiᵀ)ᵀ k i, wm, wc⟩

/-- `jnp.concatenate([A, B], axis=0)`. -/
def vcat {a b : ℕ} (A : Matrix (Fin a) (Fin n) ℝ) (B : Matrix (Fin b) (Fin n) ℝ) :
    Matrix (Fin (a + b)) (Fin n) ℝ :=
  Matrix.of (Fin.append (fun k i => A k i) fun k i => B k i)

/-- `cuthbertlib/quadrature/cubature.py:54-73`, `weights`. -/
def cubature (n : ℕ) : Rule n (n + n) where
  getSigmaPoints m chol :=
    let wm : Fin (n + n) → ℝ := fun _ => 1 / (2 * n)
    let xi : Matrix (Fin (n + n)) (Fin n) ℝ := Matrix.of fun k i => vcat 1 (-1) k i * Real.sqrt n
    sigmaPointsOf m chol xi wm wm

/-- `cuthbertlib/quadrature/unscented.py:74`. -/
def unscentedLambda (n : ℕ) (alpha kappa : ℝ) : ℝ := alpha ^ 2 * (n + kappa) - n

/-- `cuthbertlib/quadrature/unscented.py:49-79`, `weights`, with `get_sigma_points` (26-46); `kappa = none` is
the default `3 + n`. The result is `none` for `n + λ ≤ 0`, where the code divides by zero or takes the square
root of a negative number. -/
def unscented (n : ℕ) (alpha beta : ℝ) (kappa : Option ℝ) : Option (Rule n (1 + (n + n))) :=
  -- 71-74
  let kappa := kappa.getD (3 + n)
  let lam := unscentedLambda n alpha kappa
  -- 75-78
  let wm : Fin (1 + (n + n)) → ℝ := Fin.append (fun _ => lam / (n + lam)) fun _ => 1 / (2 * (n + lam))
  let wc : Fin (1 + (n + n)) → ℝ :=
    Fin.append (fun _ => lam / (n + lam) + (1 - alpha ^ 2 + beta)) fun _ => 1 / (2 * (n + lam))
  if 0 < n + lam then
    some
      { getSigmaPoints := fun m chol =>
          -- 39-45
          let scaled : Matrix (Fin n) (Fin n) ℝ := Real.sqrt (n + lam) • chol
          let offsets : Matrix (Fin (1 + (n + n))) (Fin n) ℝ := vcat 0 (vcat scaledᵀ (-scaledᵀ))
          ⟨Matrix.of fun k i => m i + offsets k i, wm, wc⟩ }
  else none

/-- `numpy.polynomial.hermite_e.hermegauss(order)`, known by its contract: with weight function `exp(-t² / 2)`,
whose integral is `√(2π)`, polynomials of degree up to `2 * order - 1` are integrated exactly and the
weights are positive. -/
structure Hermegauss (order : ℕ) where
  x : Fin order → ℝ
  w : Fin order → ℝ
  pos : ∀ j, 0 < w j
  exact : ∀ d < 2 * order, ∑ j, w j * x j ^ d =
    Real.sqrt (2 * Real.pi) * ∫ t, t ^ d ∂ProbabilityTheory.gaussianReal 0 1

/-- `itertools.product(*(v,) * n)`: row `k` is the `k`-th tuple, the last coordinate varying fastest. -/
def productRow {order : ℕ} (v : Fin order → ℝ) (n : ℕ) (k : Fin (order ^ n)) : Fin n → ℝ :=
  fun i => v (finFunctionFinEquiv.symm k i.rev)

/-- `cuthbertlib/quadrature/gauss_hermite.py:42-62`, `weights`, with `get_sigma_points` (29-39). -/
def gaussHermite {order : ℕ} (h : Hermegauss order) (n : ℕ) : Rule n (order ^ n) where
  getSigmaPoints m chol :=
    let xn : Matrix (Fin (order ^ n)) (Fin n) ℝ := Matrix.of (productRow h.x n)
    let wn : Fin (order ^ n) → ℝ := fun k => (∏ i, productRow h.w n k i) / Real.sqrt (2 * Real.pi) ^ n
    sigmaPointsOf m chol xn wn wn

/-! ## Rank-one updates of a Cholesky factor -/

/-- `jnp.sqrt`. -/
def flSqrt : Fl → Fl
  | .nan => .nan
  | .ninf => .nan
  | .pinf => .pinf
  | .fin a => if a < 0 then .nan else .fin (Real.sqrt a)

/-- `cuthbertlib/quadrature/utils.py:68-94`, `scan_body`: the carried first two components are not used and
left out. -/
def cholUpdateBody (mult : ℝ) (carry : (Fin n → Fl) × Fl) (inp : Fin n × Fl × (Fin n → Fl)) :
    ((Fin n → Fl) × Fl) × (Fl × (Fin n → Fl)) :=
  let omega := carry.1
  let b := carry.2
  let omegaAt := omega inp.1
  -- 74-76
  let newDiag := flSqrt (inp.2.1 * inp.2.1 + .fin mult / b * (omegaAt * omegaAt))
  -- 78-80
  let scaling := inp.2.1 * inp.2.1 * b + .fin mult * (omegaAt * omegaAt)
  -- 83
  let omega' := fun i => omega i - omegaAt / inp.2.1 * inp.2.2 i
  -- 84-87
  let newCol := fun i => newDiag * (inp.2.2 i / inp.2.1 + .fin mult * omegaAt / scaling * omega' i)
  -- 88
  let b' := b + .fin mult * (omegaAt / inp.2.1 * (omegaAt / inp.2.1))
  ((omega', b'), (newDiag, newCol))

/-- `jnp.where(jnp.isfinite(x), x, 0.0)`, `cuthbertlib/quadrature/utils.py:108`. -/
def finiteOrZero : Fl → ℝ
  | .fin a => a
  | _ => 0

/-- `cuthbertlib/quadrature/utils.py:42-109`, `_cholesky_update` with `_set_diagonal` and `_set_triu`, on a finite matrix and vector. -/
def choleskyUpdate (mult : ℝ) (chol : Matrix (Fin n) (Fin n) ℝ) (v : Fin n → ℝ) : Matrix (Fin n) (Fin n) ℝ :=
  -- 96-103: scan over the columns
  let outs := (laxScan (cholUpdateBody mult) ((fun i => Fl.fin (v i)), .fin 1)
    ((List.finRange n).map fun j => (j, .fin (chol j j), fun i => .fin (chol i j)))).2
  -- 105-108
  Matrix.of fun i j =>
    if i < j then 0
    else match outs[j.val]? with
      | some out => if i = j then finiteOrZero out.1 else finiteOrZero (out.2 i)
      | none => 0

/-- `cuthbertlib/quadrature/utils.py:11-39`, `cholesky_update_many`: `update_vectors` has one vector per row. -/
def choleskyUpdateMany {m : ℕ} (chol : Matrix (Fin n) (Fin n) ℝ) (vectors : Matrix (Fin m) (Fin n) ℝ) (mult : ℝ) :
    Matrix (Fin n) (Fin n) ℝ :=
  (laxScan (fun chol v => (choleskyUpdate mult chol v, ())) chol ((List.finRange m).map fun r i => vectors r i)).1

/-! ## Statistical linear regression -/

/-- `jnp.linalg.cholesky`, known by its contract; NaN for a matrix without a Cholesky factor. -/
structure Cholesky where
  factor : ∀ {n : ℕ}, Matrix (Fin n) (Fin n) ℝ → Option (Matrix (Fin n) (Fin n) ℝ)
  posDef : ∀ {n : ℕ} (A : Matrix (Fin n) (Fin n) ℝ), A.PosDef →
    ∃ L, factor A = some L ∧ (∀ i j, i < j → L i j = 0) ∧ (∀ i, 0 < L i i) ∧ L * Lᵀ = A

/-- `cho_solve((L, True), B)` for a matrix `B`; non-finite for a zero pivot. -/
def choSolveMat {m : ℕ} (L : Matrix (Fin n) (Fin n) ℝ) (B : Matrix (Fin n) (Fin m) ℝ) :
    Option (Matrix (Fin n) (Fin m) ℝ) :=
  open Classical in
  if ∀ i, L i i ≠ 0 then some ((lowerPart L * (lowerPart L)ᵀ)⁻¹ * B) else none

/-- `vmap(f)(x_pts.points)` with the weights of `x_pts`, `cuthbertlib/quadrature/linearize.py:48`. -/
def mapPoints (s : SigmaPoints N nx) (f : (Fin nx → ℝ) → Fin ny → ℝ) : SigmaPoints N ny :=
  ⟨Matrix.of fun k => f (s.points k), s.wm, s.wc⟩

/-- `cuthbertlib/quadrature/linearize.py:17-72`, `conditional_moments`. For `N = 0` points (`n = 0`) with
`ny > 0` the square-root branch returns an array of another shape; the model returns `none` there. -/
def conditionalMoments (qr : QR) (ch : Cholesky) (meanFn : (Fin nx → ℝ) → Fin ny → ℝ)
    (covFn : (Fin nx → ℝ) → Matrix (Fin ny) (Fin ny) ℝ) (m : Fin nx → ℝ) (covMat : Matrix (Fin nx) (Fin nx) ℝ)
    (rule : Rule nx N) (mode : String) :
    Option (Matrix (Fin ny) (Fin nx) ℝ × (Fin ny → ℝ) × Matrix (Fin ny) (Fin ny) ℝ) := do
  -- 42-45
  let chol ← if mode = "covariance" then ch.factor covMat else some covMat
  -- 46-49
  let xPts := rule.getSigmaPoints m chol
  let fPts := mapPoints xPts meanFn
  let psi := xPts.covariance fPts
  -- 51-52
  let A := (← choSolveMat chol psi)ᵀ
  let b := fPts.mean - A *ᵥ m
  if mode ≠ "covariance" then
    -- 55
    let sqrtPhi ← fPts.sqrt qr
    -- 57-61; negative weights have given NaN already
    let temp : Matrix (Fin ny) (Fin (N * ny)) ℝ := Matrix.of fun i c =>
      Real.sqrt (xPts.wc (finProdFinEquiv.symm c).1) *
        covFn (xPts.points (finProdFinEquiv.symm c).1) i (finProdFinEquiv.symm c).2
    -- 62-64
    if h : ny ≤ min N ny + N * ny then
      return (A, b, choleskyUpdateMany (triaSq qr (hcat sqrtPhi temp) h) (A * chol)ᵀ (-1))
    else none
  else
    -- 66-72
    let vf := ∑ k, xPts.wc k • covFn (xPts.points k)
    let phi := fPts.covariance fPts
    let Q := phi + vf - A * covMat * Aᵀ
    return (A, b, (1 / 2 : ℝ) • (Q + Qᵀ))

/-- `cuthbertlib/quadrature/linearize.py:75-143`, `functional`. -/
def functional (qr : QR) (ch : Cholesky) (fn : (Fin nx → ℝ) → Fin ny → ℝ) (S : Matrix (Fin ny) (Fin ny) ℝ)
    (m : Fin nx → ℝ) (covMat : Matrix (Fin nx) (Fin nx) ℝ) (rule : Rule nx N) (mode : String) :
    Option (Matrix (Fin ny) (Fin nx) ℝ × (Fin ny → ℝ) × Matrix (Fin ny) (Fin ny) ℝ) :=
  conditionalMoments qr ch fn (fun _ => S) m covMat rule mode

end

end Cuthbert.Quadrature
