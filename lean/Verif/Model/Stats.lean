import Verif.Model.Linalg
import Mathlib.Analysis.SpecialFunctions.Log.Basic

/-!
# Gaussian log density

Models `cuthbertlib/stats/multivariate_normal.py`. A NaN coordinate of `x` is `none`; a result that is
not a finite number is `none`. Batched arguments and the broadcasting of a scalar `x` or `mean` against
a vector are not modelled.
-/

namespace Cuthbert
open Matrix

noncomputable section

variable {n k : ℕ}

/-- `cuthbertlib/stats/multivariate_normal.py:47-51`: `x`, `mean` and `chol_cov` scalars. The code
takes the logarithm of `chol_cov` itself, so a non-positive value gives a non-finite result. -/
def logpdfScalarCore (x m c : ℝ) : Option ℝ :=
  if 0 < c then
    some (-1 / 2 * (x - m) ^ 2 / c ^ 2 - 1 / 2 * (Real.log (2 * Real.pi) + 2 * Real.log c))
  else none

/-- `cuthbertlib/stats/multivariate_normal.py:54-58`: vectors with a scalar `chol_cov` (only reached with
`nan_support=False`). -/
def logpdfIso (x m : Fin n → ℝ) (c : ℝ) : Option ℝ :=
  if 0 < c then
    some (-1 / 2 * ((x - m) ⬝ᵥ (x - m)) / c ^ 2
      - (n : ℝ) / 2 * (Real.log (2 * Real.pi) + 2 * Real.log c))
  else none

/-- `cuthbertlib/stats/multivariate_normal.py:59-65`: a vector of standard deviations. -/
def logpdfDiag (x m c : Fin n → ℝ) : Option ℝ :=
  open Classical in
  if ∀ i, c i ≠ 0 then
    let y := fun i => (x i - m i) / c i
    some (-1 / 2 * (y ⬝ᵥ y) - (n : ℝ) / 2 * Real.log (2 * Real.pi) - ∑ i, Real.log |c i|)
  else none

/-- `cuthbertlib/stats/multivariate_normal.py:69-77`: a square matrix; `triangular_solve` reads its lower
triangle. -/
def logpdfMat (x m : Fin n → ℝ) (L : Matrix (Fin n) (Fin n) ℝ) : Option ℝ :=
  (solveLowerVec L (x - m)).map fun y =>
    -1 / 2 * (y ⬝ᵥ y) - (n : ℝ) / 2 * Real.log (2 * Real.pi) - ∑ i, Real.log |L i i|

/-- `cuthbertlib/stats/multivariate_normal.py:14-51`, `logpdf` of scalars. With `nan_support` and a NaN
`x`, `collect_nans_chol` sets `x`, `mean` and `chol_cov` to 0. -/
def logpdfScalar (nanSupport : Bool) (x : Option ℝ) (m c : ℝ) : Option ℝ :=
  match x with
  | some x => logpdfScalarCore x m c
  | none => if nanSupport then logpdfScalarCore 0 0 0 else none

/-- The `chol_cov` argument of `logpdf` for vectors of length `n`. -/
inductive LogpdfChol (n k : ℕ) where
  | scalar (c : ℝ)
  | diag (c : Fin n → ℝ)
  | mat (L : Matrix (Fin k) (Fin k) ℝ)

/-- All coordinates of `x`, if none is NaN. -/
def allSome (x : Fin n → Option ℝ) : Option (Fin n → ℝ) :=
  if ∀ i, (x i).isSome then some fun i => (x i).getD 0 else none

/-- `isnan(x)`. -/
def isNan (x : Fin n → Option ℝ) : Fin n → Bool := fun i => (x i).isNone

/-- `cuthbertlib/stats/multivariate_normal.py:14-77`, `logpdf` of vectors of the same length. With
`nan_support`, NaNs are collected first (40-45); a `k x k` matrix with `k ≠ n` then fails inside
`collect_nans_chol` where `flag[:, None]` meets it (`collect_nans_chol.py:73`), except when one of the
two has length one, where it broadcasts: for `n = 1` the first row is used, for `k = 1` the matrix is
first blown up to `n x n` constant entries (line 61-62 there, and then rows are masked). -/
def logpdf (qr : QR) (nanSupport : Bool) (x : Fin n → Option ℝ) (m : Fin n → ℝ)
    (chol : LogpdfChol n k) : Except Err (Option ℝ) :=
  if nanSupport then
    let f := isNan x
    let x' := collectRest f fun i => (x i).getD 0
    let m' := collectRest f m
    match chol with
    | .scalar c => .ok (logpdfDiag x' m' (collectDiag f fun _ => c))
    | .diag c => .ok (logpdfDiag x' m' (collectDiag f c))
    | .mat L =>
      if h : k = n then .ok (logpdfMat x' m' (collectMat qr f (h ▸ L)))
      else if hn : n = 1 ∧ 0 < k then
        -- one row of length k; tria gives a 1 x 1 factor
        let row : Matrix (Fin n) (Fin k) ℝ :=
          Matrix.of fun i j => if f i then 0 else L ⟨0, hn.2⟩ j
        let T := triaSq qr row (by omega)
        .ok (logpdfMat x' m' (Matrix.of fun i j =>
          if i = j then (if f i then missingScale else T i i) else T i j))
      else if hk : k = 1 then
        .ok (logpdfMat x' m' (collectMat qr f (Matrix.of fun _ _ => L ⟨0, by omega⟩ ⟨0, by omega⟩)))
      else .error .valueError
  else
    match chol with
    | .scalar c => .ok ((allSome x).bind fun x => logpdfIso x m c)
    | .diag c => .ok ((allSome x).bind fun x => logpdfDiag x m c)
    | .mat L =>
      if h : k = n then .ok ((allSome x).bind fun x => logpdfMat x m (h ▸ L))
      else .error .valueError

/-- `cuthbertlib/stats/multivariate_normal.py:80-102`, `pdf`. -/
def pdf (qr : QR) (nanSupport : Bool) (x : Fin n → Option ℝ) (m : Fin n → ℝ)
    (chol : LogpdfChol n k) : Except Err (Option ℝ) :=
  (logpdf qr nanSupport x m chol).map fun r => r.map Real.exp

end

end Cuthbert
