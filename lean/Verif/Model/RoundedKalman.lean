import Verif.Model.Kalman
import Verif.Spec.LGSSM

/-!
# The Kalman filter with an inexact triangularisation

`predict` and `update` with the result of `jax.scipy.linalg.qr` left open. Simplification: matrix products and
triangular solves are exact, only the triangularisation is not.
-/

namespace Cuthbert.Kalman
open Matrix Cuthbert

noncomputable section

variable {nx ny : ℕ}

/-- `cuthbertlib/linalg/tria.py:8-21`, `tria` for at least as many columns as rows, as a parameter. -/
structure Triang where
  sq : ∀ {n k : ℕ}, Matrix (Fin n) (Fin k) ℝ → n ≤ k → Matrix (Fin n) (Fin n) ℝ

/-- `tria` with an exact QR decomposition. -/
def exactTriang (qr : QR) : Triang := ⟨fun A h => triaSq qr A h⟩

/-- `cuthbertlib/linalg/collect_nans_chol.py:72-84`, a square root matrix. -/
def collectMatWith (tri : Triang) {n : ℕ} (flag : Fin n → Bool) (chol : Matrix (Fin n) (Fin n) ℝ) :
    Matrix (Fin n) (Fin n) ℝ :=
  -- 73-74
  let zeroed : Matrix (Fin n) (Fin n) ℝ := Matrix.of fun i j => if flag i then 0 else chol i j
  let permuted : Matrix (Fin n) (Fin n) ℝ := Matrix.of fun i j => zeroed (stableArgsort flag i) j
  -- 76
  let L := tri.sq permuted le_rfl
  -- 78-84
  Matrix.of fun i j =>
    if i = j then (if flag (stableArgsort flag i) then missingScale else L i i) else L i j

/-- `cuthbertlib/kalman/filtering.py:86-87`. -/
def collectWith (tri : Triang) (H : Matrix (Fin ny) (Fin nx) ℝ) (d : Fin ny → ℝ)
    (cholR : Matrix (Fin ny) (Fin ny) ℝ) (y : Fin ny → Option ℝ) : Collected nx ny where
  H := Matrix.of (collectRest (isNan y) fun i j => H i j)
  d := collectRest (isNan y) d
  cholR := collectMatWith tri (isNan y) cholR
  y := collectRest (isNan y) fun i => (y i).getD 0

/-- `cuthbertlib/kalman/filtering.py:25-53`, `predict`. -/
def predictWith (tri : Triang) (m : Fin nx → ℝ) (cholP : Matrix (Fin nx) (Fin nx) ℝ)
    (F : Matrix (Fin nx) (Fin nx) ℝ) (c : Fin nx → ℝ) (cholQ : Matrix (Fin nx) (Fin nx) ℝ) :
    (Fin nx → ℝ) × Matrix (Fin nx) (Fin nx) ℝ :=
  -- 50
  let m1 := F *ᵥ m + c
  -- 51-52
  let A := hcat (F * cholP) cholQ
  (m1, tri.sq A (Nat.le_add_left _ _))

/-- What `update` returns, and the standardised innovation `solve_triangular(Imat, y_diff)` that it calculates on the way
(`cuthbertlib/kalman/filtering.py:110`). -/
structure Updated (nx ny : ℕ) where
  mean : Fin nx → ℝ
  chol : Matrix (Fin nx) (Fin nx) ℝ
  ell : ℝ
  white : Fin ny → ℝ

/-- `cuthbertlib/kalman/filtering.py:57-113`, `update`; `none` if the mean or the log-likelihood is not a number. -/
def updateWith (tri : Triang) (m : Fin nx → ℝ) (cholP : Matrix (Fin nx) (Fin nx) ℝ)
    (H : Matrix (Fin ny) (Fin nx) ℝ) (d : Fin ny → ℝ) (cholR : Matrix (Fin ny) (Fin ny) ℝ)
    (y : Fin ny → Option ℝ) (logNormalizingConstant : ℝ) : Option (Updated nx ny) :=
  -- 86-91
  let o := collectWith tri H d cholR y
  -- 95-96
  let yHat := o.H *ᵥ m + o.d
  let yDiff := o.y - yHat
  -- 98-104
  let M := block (o.H * cholP) o.cholR cholP 0
  let cholS := tri.sq M (Nat.add_comm _ _).le
  -- 105-108
  let cholPy := bottomRight cholS
  let Gmat := bottomLeft cholS
  let Imat := topLeft cholS
  do
    -- 110
    let v ← solveLowerVec Imat yDiff
    -- 112-113
    let l ← logpdfMat o.y yHat Imat
    return ⟨m + Gmat *ᵥ v, cholPy, l + logNormalizingConstant, v⟩

/-- Filtering a sequence of observations: `predict`, then `update`, with the log-likelihood handed on. These are also the
two calls, in this order, of the sequential filters of `cuthbert/gaussian/moments/non_associative_filter.py:112-145` and
`cuthbert/gaussian/taylor/non_associative_filter.py:180-228`, which obtain `F, c, cholQ` and `H, d, cholR` by linearisation. -/
def onlineWith (tri : Triang) (steps : ℕ → Step nx ny) (m₀ : Fin nx → ℝ) (L₀ : Matrix (Fin nx) (Fin nx) ℝ) :
    ℕ → Option (Updated nx ny)
  | 0 => some ⟨m₀, L₀, 0, 0⟩
  | t + 1 => do
    let s ← onlineWith tri steps m₀ L₀ t
    let p := predictWith tri s.mean s.chol (steps t).F (steps t).c (steps t).cholQ
    updateWith tri p.1 p.2 (steps t).H (steps t).d (steps t).cholR (steps t).y s.ell

/-- What `smoothing.update` returns (without the gain), and the innovation standardised by `Phi11`, which the code does not
calculate. -/
structure Smoothed (nx : ℕ) where
  mean : Fin nx → ℝ
  chol : Matrix (Fin nx) (Fin nx) ℝ
  white : Fin nx → ℝ

/-- `cuthbertlib/kalman/smoothing.py:22-66`, `update`. -/
def smootherUpdateWith (tri : Triang) (filterM : Fin nx → ℝ) (filterCholP : Matrix (Fin nx) (Fin nx) ℝ)
    (smootherM : Fin nx → ℝ) (smootherCholP : Matrix (Fin nx) (Fin nx) ℝ)
    (F : Matrix (Fin nx) (Fin nx) ℝ) (c : Fin nx → ℝ) (cholQ : Matrix (Fin nx) (Fin nx) ℝ) : Option (Smoothed nx) :=
  -- 56-60
  let Phi := block (F * filterCholP) cholQ filterCholP 0
  let triaPhi := tri.sq Phi le_rfl
  let Phi11 := topLeft triaPhi
  let Phi21 := bottomLeft triaPhi
  let Phi22 := bottomRight triaPhi
  -- 61
  (smootherUpdate.solveLowerTrans Phi11 Phi21ᵀ).map fun X =>
  let gain := Xᵀ
  -- 63-65
  let meanDiff := smootherM - (c + F *ᵥ filterM)
  let mean := filterM + gain *ᵥ meanDiff
  let chol := tri.sq (hcat Phi22 (gain * smootherCholP)) (Nat.le_add_left _ _)
  ⟨mean, chol, Phi11⁻¹ *ᵥ meanDiff⟩

/-- Smoothing `k` steps back from the filtering state after `T` steps: one call of `smoothing.update` per step. -/
def smoothWith (tri : Triang) (steps : ℕ → Step nx ny) (m₀ : Fin nx → ℝ) (L₀ : Matrix (Fin nx) (Fin nx) ℝ) (T : ℕ) :
    ℕ → Option (Smoothed nx)
  | 0 => (onlineWith tri steps m₀ L₀ T).map fun s => ⟨s.mean, s.chol, 0⟩
  | k + 1 => do
    let r ← smoothWith tri steps m₀ L₀ T k
    let s ← onlineWith tri steps m₀ L₀ (T - (k + 1))
    let u := steps (T - (k + 1))
    smootherUpdateWith tri s.mean s.chol r.mean r.chol u.F u.c u.cholQ

end

end Cuthbert.Kalman
