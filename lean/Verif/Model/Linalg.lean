import Verif.Model.Interface
import Mathlib.LinearAlgebra.Matrix.NonsingularInverse
import Mathlib.Data.Fin.Tuple.Sort
import Mathlib.Data.Matrix.Block
import Mathlib.Data.Matrix.ColumnRowPartitioned
import Mathlib.Analysis.SpecialFunctions.Pow.Real
import Mathlib.Analysis.SpecialFunctions.Trigonometric.Basic
import Mathlib.Data.Real.Basic

/-!
# Linear algebra

Models `cuthbertlib/linalg/*.py`. Matrices have real entries; where the code produces or consumes NaN
an entry is an `Option ℝ` (`none` is NaN) or the function returns `none`.
-/

namespace Cuthbert
open Matrix

noncomputable section

variable {n k : ℕ}

/-- `jax.scipy.linalg.qr(B, mode="economic")` (called at `cuthbertlib/linalg/tria.py:20`): the
library routine is a parameter of the model, known only by its contract. Signs of the rows of
`r` are left open, as in LAPACK. -/
structure QR where
  q : ∀ {k n : ℕ}, Matrix (Fin k) (Fin n) ℝ → Matrix (Fin k) (Fin (min k n)) ℝ
  r : ∀ {k n : ℕ}, Matrix (Fin k) (Fin n) ℝ → Matrix (Fin (min k n)) (Fin n) ℝ
  orthonormal : ∀ {k n : ℕ} (B : Matrix (Fin k) (Fin n) ℝ), (q B)ᵀ * q B = 1
  factor : ∀ {k n : ℕ} (B : Matrix (Fin k) (Fin n) ℝ), q B * r B = B
  upper : ∀ {k n : ℕ} (B : Matrix (Fin k) (Fin n) ℝ) (i : Fin (min k n)) (j : Fin n),
    j.val < i.val → r B i j = 0

/-- `cuthbertlib/linalg/tria.py:8-21`, `tria`. The result has `min k n` columns. -/
def tria (qr : QR) (A : Matrix (Fin n) (Fin k) ℝ) : Matrix (Fin n) (Fin (min k n)) ℝ :=
  (qr.r Aᵀ)ᵀ

/-- `tria` of a matrix with at least as many columns as rows: the result is square. (In the code the
shape `min k n` simply evaluates to `n`.) -/
def triaSq (qr : QR) (A : Matrix (Fin n) (Fin k) ℝ) (h : n ≤ k) : Matrix (Fin n) (Fin n) ℝ :=
  (tria qr A).submatrix id (Fin.cast (min_eq_right h).symm)

/-- `jnp.block([[A, B], [C, D]])`. -/
def block {a b c d : ℕ} (A : Matrix (Fin a) (Fin c) ℝ) (B : Matrix (Fin a) (Fin d) ℝ)
    (C : Matrix (Fin b) (Fin c) ℝ) (D : Matrix (Fin b) (Fin d) ℝ) :
    Matrix (Fin (a + b)) (Fin (c + d)) ℝ :=
  Matrix.reindex finSumFinEquiv finSumFinEquiv (Matrix.fromBlocks A B C D)

/-- `jnp.concatenate([A, B], axis=1)`. -/
def hcat {a c d : ℕ} (A : Matrix (Fin a) (Fin c) ℝ) (B : Matrix (Fin a) (Fin d) ℝ) :
    Matrix (Fin a) (Fin (c + d)) ℝ :=
  (Matrix.fromCols A B).submatrix id finSumFinEquiv.symm

/-- The slice `L[:a, :a]`. -/
def topLeft {a b : ℕ} (L : Matrix (Fin (a + b)) (Fin (a + b)) ℝ) : Matrix (Fin a) (Fin a) ℝ :=
  L.submatrix (Fin.castAdd b) (Fin.castAdd b)

/-- The slice `L[a:, :a]`. -/
def bottomLeft {a b : ℕ} (L : Matrix (Fin (a + b)) (Fin (a + b)) ℝ) : Matrix (Fin b) (Fin a) ℝ :=
  L.submatrix (Fin.natAdd a) (Fin.castAdd b)

/-- The slice `L[a:, a:]`. -/
def bottomRight {a b : ℕ} (L : Matrix (Fin (a + b)) (Fin (a + b)) ℝ) : Matrix (Fin b) (Fin b) ℝ :=
  L.submatrix (Fin.natAdd a) (Fin.natAdd a)

/-- The triangle that `solve_triangular(L, ., lower=True)` and `cho_solve((L, True), .)` read. -/
def lowerPart (L : Matrix (Fin n) (Fin n) ℝ) : Matrix (Fin n) (Fin n) ℝ :=
  Matrix.of fun i j => if j ≤ i then L i j else 0

/-- `solve_triangular(L, B, lower=True)`: forward substitution with the lower triangle of `L`. A zero
on the diagonal makes the result non-finite (`none`). Simplification: with a zero pivot the code may
still return finite numbers in the rows before the pivot; the model marks the whole result. -/
def solveLower {m : Type*} (L : Matrix (Fin n) (Fin n) ℝ) (B : Matrix (Fin n) m ℝ) :
    Option (Matrix (Fin n) m ℝ) :=
  open Classical in if ∀ i, L i i ≠ 0 then some ((lowerPart L)⁻¹ * B) else none

/-- `solve_triangular(L, v, lower=True)` for a vector. -/
def solveLowerVec (L : Matrix (Fin n) (Fin n) ℝ) (v : Fin n → ℝ) : Option (Fin n → ℝ) :=
  open Classical in if ∀ i, L i i ≠ 0 then some ((lowerPart L)⁻¹ *ᵥ v) else none

/-- `cho_solve((L, True), v)`: solves `(L Lᵀ) x = v` with the lower triangle of `L`. -/
def choSolve (L : Matrix (Fin n) (Fin n) ℝ) (v : Fin n → ℝ) : Option (Fin n → ℝ) :=
  open Classical in
  if ∀ i, L i i ≠ 0 then some ((lowerPart L * (lowerPart L)ᵀ)⁻¹ *ᵥ v) else none

/-- `jnp.argsort(flag, stable=True)` (`cuthbertlib/linalg/collect_nans_chol.py:65`): Mathlib's
`Tuple.sort` is the stable sorting permutation. -/
def stableArgsort (flag : Fin n → Bool) : Equiv.Perm (Fin n) := Tuple.sort flag

/-- `cuthbertlib/linalg/collect_nans_chol.py:12-15, 87-88`: an entry of `rest` is permuted along its
first axis and flagged entries are set to zero (`flag` is the permuted flag there). -/
def collectRest {α : Type*} [Zero α] (flag : Fin n → Bool) (x : Fin n → α) : Fin n → α :=
  fun i => if flag (stableArgsort flag i) then 0 else x (stableArgsort flag i)

/-- `1 / sqrt(2 π)`, the value put on the diagonal for missing dimensions
(`cuthbertlib/linalg/collect_nans_chol.py:70, 82`). -/
def missingScale : ℝ := 1 / Real.sqrt (2 * Real.pi)

/-- `cuthbertlib/linalg/collect_nans_chol.py:67-70`: a vector of standard deviations. -/
def collectDiag (flag : Fin n → Bool) (chol : Fin n → ℝ) : Fin n → ℝ :=
  fun i => if flag (stableArgsort flag i) then missingScale else chol (stableArgsort flag i)

/-- `cuthbertlib/linalg/collect_nans_chol.py:72-84`: a square root matrix. -/
def collectMat (qr : QR) (flag : Fin n → Bool) (chol : Matrix (Fin n) (Fin n) ℝ) :
    Matrix (Fin n) (Fin n) ℝ :=
  -- 73-74
  let zeroed : Matrix (Fin n) (Fin n) ℝ := Matrix.of fun i j => if flag i then 0 else chol i j
  let permuted : Matrix (Fin n) (Fin n) ℝ := Matrix.of fun i j => zeroed (stableArgsort flag i) j
  -- 76
  let L := triaSq qr permuted le_rfl
  -- 78-84
  Matrix.of fun i j =>
    if i = j then (if flag (stableArgsort flag i) then missingScale else L i i) else L i j

/-- The `flag` argument of `collect_nans_chol` by rank. -/
inductive FlagArg (n : ℕ) where
  | scalar (b : Bool)
  | vec (f : Fin n → Bool)
  | batched

/-- The `chol` argument of `collect_nans_chol` and of `logpdf` by rank. -/
inductive CholArg (n : ℕ) where
  | scalar (r : ℝ)
  | diag (v : Fin n → ℝ)
  | mat (M : Matrix (Fin n) (Fin n) ℝ)
  | batched

/-- `cuthbertlib/linalg/collect_nans_chol.py:18-84`, `collect_nans_chol`: the returned flag and factor
(the `rest` is `collectRest`, or `0` if flagged for a scalar flag and a `rest` of at most one dimension). Shapes
that do not broadcast are not modelled, nor is a one-element vector or matrix `chol` together with a longer flag. -/
def collectNansChol (qr : QR) (flag : FlagArg n) (chol : CholArg n) :
    Except Err (FlagArg n × CholArg n) :=
  match flag, chol with
  -- 51-52
  | .batched, _ => .error .valueError
  | _, .batched => .error .valueError
  -- 54-59
  | .scalar b, .scalar r => .ok (.scalar b, .scalar (if b then 0 else r))
  | .scalar b, .diag v => .ok (.scalar b, .diag (if b then 0 else v))
  -- 14: `expand_dims` cannot insert axis 1 into an array without axes
  | .scalar _, .mat _ => .error .valueError
  -- 61-62 and 67-70
  | .vec f, .scalar r => .ok (.vec (f ∘ stableArgsort f), .diag (collectDiag f fun _ => r))
  | .vec f, .diag v => .ok (.vec (f ∘ stableArgsort f), .diag (collectDiag f v))
  -- 72-84
  | .vec f, .mat M => .ok (.vec (f ∘ stableArgsort f), .mat (collectMat qr f M))

/-- `cuthbertlib/linalg/marginal_sqrt_cov.py:11-36`, `marginal_sqrt_cov`: `dynamic_slice` clamps the
start so that the slice fits. `start` is a natural number here (JAX also wraps negative ones). A `size`
larger than the matrix makes `dynamic_slice` raise `TypeError`. -/
def marginalSqrtCov (qr : QR) (chol : Matrix (Fin n) (Fin n) ℝ) (start size : ℕ) :
    Except Err (Matrix (Fin size) (Fin size) ℝ) :=
  if size = 0 then .error .assertionError
  else if h : size ≤ n then
    let s := min start (n - size)
    .ok (triaSq qr (chol.submatrix (fun i : Fin size => ⟨s + i, by omega⟩) id) h)
  else .error .typeError

/-- `cuthbertlib/linalg/marginal_sqrt_cov.py:39-62`, `block_marginal_sqrt_cov`. -/
def blockMarginalSqrtCov (qr : QR) (chol : Matrix (Fin n) (Fin n) ℝ) (subdim : ℕ) :
    Except Err (List (Matrix (Fin subdim) (Fin subdim) ℝ)) :=
  if 0 < subdim ∧ n % subdim = 0 then
    (List.range (n / subdim)).mapM fun i => marginalSqrtCov qr chol (i * subdim) subdim
  else .error .assertionError

/-- Entrywise partial matrices: `none` is NaN. -/
abbrev NMat (n : ℕ) := Fin n → Fin n → Option ℝ

/-- A product of two numbers in floating point: NaN if one factor is (also for `0 * NaN`). -/
def nanMul (a b : Option ℝ) : Option ℝ := a.bind fun x => b.map fun y => x * y

/-- A sum in floating point: NaN if one term is. -/
def nanSum {k : ℕ} (f : Fin k → Option ℝ) : Option ℝ :=
  if ∀ i, (f i).isNone = false then some (∑ i, (f i).getD 0) else none

/-- `A @ B` with NaN propagation. -/
def nanMatMul {a b c : ℕ} (A : Fin a → Fin b → Option ℝ) (B : Fin b → Fin c → Option ℝ) :
    Fin a → Fin c → Option ℝ := fun i j => nanSum fun k => nanMul (A i k) (B k j)

/-- `A @ v` with NaN propagation. -/
def nanMatVec {a b : ℕ} (A : Fin a → Fin b → Option ℝ) (v : Fin b → Option ℝ) : Fin a → Option ℝ :=
  fun i => nanSum fun k => nanMul (A i k) (v k)

/-- `jnp.linalg.svd(A, full_matrices=False, hermitian=True)` for a symmetric matrix (called at
`cuthbertlib/linalg/symmetric_inv_sqrt.py:84`): JAX computes it from the eigendecomposition, so the
left singular vectors are eigenvectors and the singular values the absolute eigenvalues, largest
first. -/
structure SVD where
  u : ∀ {n : ℕ}, Matrix (Fin n) (Fin n) ℝ → Matrix (Fin n) (Fin n) ℝ
  s : ∀ {n : ℕ}, Matrix (Fin n) (Fin n) ℝ → Fin n → ℝ
  sign : ∀ {n : ℕ}, Matrix (Fin n) (Fin n) ℝ → Fin n → ℝ
  orthogonal : ∀ {n : ℕ} (A : Matrix (Fin n) (Fin n) ℝ), (u A)ᵀ * u A = 1
  nonneg : ∀ {n : ℕ} (A : Matrix (Fin n) (Fin n) ℝ) i, 0 ≤ s A i
  antitone : ∀ {n : ℕ} (A : Matrix (Fin n) (Fin n) ℝ), Antitone (s A)
  sign_abs : ∀ {n : ℕ} (A : Matrix (Fin n) (Fin n) ℝ) i, sign A i = 1 ∨ sign A i = -1
  factor : ∀ {n : ℕ} (A : Matrix (Fin n) (Fin n) ℝ), A.IsSymm →
    u A * Matrix.diagonal (fun i => sign A i * s A i) * (u A)ᵀ = A

/-- The largest singular value `s[0]` (0 for an empty matrix, where the code is never called). -/
def SVD.top (svd : SVD) (A : Matrix (Fin n) (Fin n) ℝ) : ℝ :=
  if h : 0 < n then svd.s A ⟨0, h⟩ else 0

/-- `cuthbertlib/linalg/symmetric_inv_sqrt.py:84-90`: the triangular factor before NaN marking. -/
def invSqrtCore (qr : QR) (svd : SVD) (rtol : ℝ) (A : Matrix (Fin n) (Fin n) ℝ) :
    Matrix (Fin n) (Fin n) ℝ :=
  let inv := fun i => if rtol * svd.top A < svd.s A i then 1 / Real.sqrt (svd.s A i) else 0
  triaSq qr (Matrix.of fun i j => svd.u A i j * inv j) le_rfl

/-- `cuthbertlib/linalg/symmetric_inv_sqrt.py:76-94`, `_symmetric_inv_sqrt` with an explicit `rtol`
(the default is `10 n eps`, a positive number). -/
def symmetricInvSqrtNoNan (qr : QR) (svd : SVD) (rtol : ℝ) (A : Matrix (Fin n) (Fin n) ℝ) : NMat n :=
  let L := invSqrtCore qr svd rtol A
  open Classical in
  let zeroDim := fun i => (∀ r, L r i = 0) ∧ ∀ c, L i c = 0
  fun i j => if zeroDim i ∨ zeroDim j then none else some (L i j)

/-- `cuthbertlib/linalg/symmetric_inv_sqrt.py:9-73`, `symmetric_inv_sqrt`. NaNs in ignored rows and
columns are overwritten; any other NaN makes the decomposition NaN everywhere. -/
def symmetricInvSqrt (qr : QR) (svd : SVD) (rtol : ℝ) (ignoreNanDims : Bool) (A : NMat n) : NMat n :=
  open Classical in
  -- 41-48
  let nanDiag := fun i => (A i i).isNone && ignoreNanDims
  let zeroMask := fun i => decide ((∀ r, A r i = some 0) ∧ ∀ c, A i c = some 0)
  let mask := fun i => nanDiag i || zeroMask i
  -- 51-53
  let σ := stableArgsort mask
  let invalid := fun i j => (mask (σ i) || mask (σ j)) && ignoreNanDims
  -- 56-59
  let sorted : Matrix (Fin n) (Fin n) ℝ :=
    Matrix.of fun i j => if invalid i j then 0 else (A (σ i) (σ j)).getD 0
  -- 62
  let bad := ∃ i j, invalid i j = false ∧ A (σ i) (σ j) = none
  let L : NMat n := if bad then fun _ _ => none else symmetricInvSqrtNoNan qr svd rtol sorted
  -- 65-67
  let L' : NMat n := fun i j =>
    if i = j ∧ mask (σ i) then none else if invalid i j then some 0 else L i j
  -- 70-71
  fun i j => L' (σ.symm i) (σ.symm j)

/-- `cuthbertlib/linalg/symmetric_inv_sqrt.py:97-126`, `chol_cov_with_nans_to_cov`. -/
def cholCovWithNansToCov (L : NMat n) : NMat n :=
  let mask := fun i => (L i i).isNone
  let Z : NMat n := fun i j => if mask i || mask j then some 0 else L i j
  let cov := nanMatMul Z fun i j => Z j i
  fun i j => if i = j ∧ mask i then none else cov i j

end

end Cuthbert
