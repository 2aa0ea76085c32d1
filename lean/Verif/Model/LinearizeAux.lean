import Verif.Model.Linearize

/-!
# `has_aux`: linearising functions that return an auxiliary value

Models the `has_aux` argument of `cuthbertlib/linearize/{log_density,moments,taylor}.py`. A function supplied by the
user returns either the plain value or the value with an auxiliary output; JAX's transformations with `has_aux=True`
differentiate the first component and pass the second through, and raise `TypeError` if there is no second component;
with `has_aux=False` they raise `TypeError` if the output is not a scalar.
-/

namespace Cuthbert.Linearize
open Matrix

noncomputable section

variable {nx ny n : ℕ} {Aux : Type*}

/-- What a function supplied by the user returns: `d` describes the numerical part. -/
inductive UserFn (D : Type*) (X : Type*) (Aux : Type*) where
  | plain (d : D)
  | withAux (d : D) (aux : X → Aux)

/-- The numerical part. -/
def UserFn.fn {D X : Type*} : UserFn D X Aux → D
  | .plain d => d
  | .withAux d _ => d

/-- `jax.grad(f, has_aux=...)`, `jax.hessian(f, has_aux=...)`: the derivative, and the auxiliary value if any. -/
def transform {D X R : Type*} (hasAux : Bool) (f : UserFn D X Aux) (deriv : D → R) (x : X) :
    Except Err (R × Option Aux) :=
  match hasAux, f with
  | false, .plain d => .ok (deriv d, none)
  | true, .withAux d aux => .ok (deriv d, some (aux x))
  | _, _ => .error .typeError

/-- `cuthbertlib/linearize/log_density.py:119-175`, `linearize_log_density_given_chol_cov`. -/
def linearizeGivenCholCovAux (hasAux ignoreNanDims : Bool)
    (p : UserFn (CondDensity nx ny) ((Fin nx → Option ℝ) × (Fin ny → Option ℝ)) Aux) (x : Fin nx → Option ℝ)
    (y : Fin ny → Option ℝ) (cholCov : NMat ny) :
    Except Err ((Fin ny → Fin nx → Option ℝ) × (Fin ny → Option ℝ) × Option Aux) := do
  -- 152-156
  let cov := if ignoreNanDims then cholCovWithNansToCov cholCov
    else nanMatMul cholCov fun i j => cholCov j i
  -- 158-171: one call returns the Jacobian of the gradient, the gradient and the auxiliary value
  let ((jac, g), extra) ← transform hasAux p (fun d => (d.jac x y, d.grad x y)) (x, y)
  -- 173-175
  let mat := nanMatMul cov jac
  let shift := fun i => do return (← y i) - (← nanMatVec mat x i) + (← nanMatVec cov g i)
  .ok (mat, shift, extra)

/-- `cuthbertlib/linearize/log_density.py:38-97`, `linearize_log_density`. -/
def linearizeLogDensityAux (qr : QR) (svd : SVD) (rtol : ℝ) (hasAux ignoreNanDims : Bool)
    (p : UserFn (CondDensity nx ny) ((Fin nx → Option ℝ) × (Fin ny → Option ℝ)) Aux)
    (x : Fin nx → Option ℝ) (y : Fin ny → Option ℝ) :
    Except Err ((Fin ny → Fin nx → Option ℝ) × (Fin ny → Option ℝ) × NMat ny × Option Aux) := do
  -- 83-84
  let (h, _) ← transform hasAux p (fun d => d.hess x y) (x, y)
  let prec : NMat ny := fun i j => (h i j).map fun h => -h
  -- 85-90
  let prec : NMat ny := if ignoreNanDims then
    fun i j => if i = j ∧ ((y i).isNone || (prec i i).isNone) then none else prec i j else prec
  -- 92-97
  let cholCov := symmetricInvSqrt qr svd rtol ignoreNanDims prec
  let (mat, shift, extra) ← linearizeGivenCholCovAux hasAux ignoreNanDims p x y cholCov
  .ok (mat, shift, cholCov, extra)

/-- `cuthbertlib/linearize/moments.py:28-94`, `linearize_moments`, at a finite point. A function that returns the wrong
number of values raises `ValueError` when its result is unpacked (lines 73, 88). -/
def linearizeMomentsAux (hasAux : Bool) (f : UserFn (MomentsFn nx ny) (Fin nx → ℝ) Aux) (x : Fin nx → ℝ) :
    Except Err (Matrix (Fin ny) (Fin nx) ℝ × (Fin ny → ℝ) × Matrix (Fin ny) (Fin ny) ℝ × Option Aux) := do
  -- 65-91
  let (F, m, cholCov, aux) ← match hasAux, f with
    | true, .withAux f aux => .ok (jacfwd (fun z => (f z).1) x, (f x).1, (f x).2, some (aux x))
    | false, .plain f => .ok (jacfwd (fun z => (f z).1) x, (f x).1, (f x).2, none)
    | _, _ => .error Err.valueError
  -- 93-94
  .ok (F, m - F *ᵥ x, cholCov, aux)

/-- `cuthbertlib/linearize/taylor.py:31-83`, `linearize_taylor`. -/
def linearizeTaylorAux (qr : QR) (svd : SVD) (rtol : ℝ) (hasAux ignoreNanDims : Bool)
    (p : UserFn (Potential n) (Fin n → Option ℝ) Aux) (x : Fin n → Option ℝ) :
    Except Err ((Fin n → Option ℝ) × NMat n × Option Aux) := do
  -- 69-73
  let (g, aux) ← transform hasAux p (fun d => d.grad x) x
  let (h, _) ← transform hasAux p (fun d => d.hess x) x
  let prec : NMat n := fun i j => (h i j).map fun h => -h
  -- 75
  let L := symmetricInvSqrt qr svd rtol ignoreNanDims prec
  -- 79-82
  let mask := fun i => (L i i).isNone && ignoreNanDims
  let Lt : NMat n := fun i j => if mask i || mask j then some 0 else L i j
  let s := nanMatVec (nanMatMul Lt fun i j => Lt j i) g
  -- 83
  .ok (fun i => do return (← x i) + (← s i), L, aux)

end

end Cuthbert.Linearize
