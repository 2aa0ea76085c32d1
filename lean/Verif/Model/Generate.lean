import Mathlib.Analysis.Real.Sqrt
import Mathlib.Data.Matrix.Mul
import Verif.Model.Resampling
import Verif.Model.Scan

/-!
# Random linear-Gaussian models

Models `cuthbertlib/kalman/generate.py`.
-/

namespace Cuthbert
namespace Generate
open Matrix

noncomputable section

variable {K : Type*} {nx ny : ℕ}

/-- The random numbers that the generator uses: `random.uniform(key, (m, n))` in `[0, 1)`,
`random.normal(key, (n,))` and `random.normal(key, (m, n))`. -/
structure GenRng (K : Type*) extends Prng K where
  uniformM : K → (m n : ℕ) → Fin m → Fin n → ℝ
  uniformM_mem : ∀ k m n i j, 0 ≤ uniformM k m n i j ∧ uniformM k m n i j < 1
  normal : K → (n : ℕ) → Fin n → ℝ
  normalM : K → (m n : ℕ) → Fin m → Fin n → ℝ

/-- `cuthbertlib/kalman/generate.py:40-44`, `generate_cholesky_factor`: the entries strictly above the
diagonal (`jnp.triu_indices(dim, 1)`) are set to zero. -/
def choleskyFactor (rng : GenRng K) (k : K) (dim : ℕ) : Matrix (Fin dim) (Fin dim) ℝ :=
  Matrix.of fun i j => if i < j then 0 else rng.uniformM k dim dim i j

/-- `cuthbertlib/kalman/generate.py:47-52`, `generate_init_model`. -/
def initModel (rng : GenRng K) (k : K) (nx : ℕ) : (Fin nx → ℝ) × Matrix (Fin nx) (Fin nx) ℝ :=
  (rng.normal (rng.nth k 2 0) nx, choleskyFactor rng (rng.nth k 2 1) nx)

/-- `cuthbertlib/kalman/generate.py:55-62`, `generate_trans_model`. -/
def transModel (rng : GenRng K) (k : K) (nx : ℕ) :
    Matrix (Fin nx) (Fin nx) ℝ × (Fin nx → ℝ) × Matrix (Fin nx) (Fin nx) ℝ :=
  (Matrix.of fun i j => 0.75 * rng.normalM (rng.nth k 3 0) nx nx i j / √nx,
    fun i => 0.1 * rng.normal (rng.nth k 3 1) nx i,
    choleskyFactor rng (rng.nth k 3 2) nx)

/-- `cuthbertlib/kalman/generate.py:65-73`, `generate_obs_model`. -/
def obsModel (rng : GenRng K) (k : K) (nx ny : ℕ) :
    Matrix (Fin ny) (Fin nx) ℝ × (Fin ny → ℝ) × Matrix (Fin ny) (Fin ny) ℝ :=
  (Matrix.of (rng.normalM (rng.nth k 3 0) ny nx), rng.normal (rng.nth k 3 1) ny,
    choleskyFactor rng (rng.nth k 3 2) ny)

/-- One entry of the arrays returned by `generate_lgssm`. -/
structure Row (nx ny : ℕ) where
  F : Matrix (Fin nx) (Fin nx) ℝ
  c : Fin nx → ℝ
  cholQ : Matrix (Fin nx) (Fin nx) ℝ
  H : Matrix (Fin ny) (Fin nx) ℝ
  d : Fin ny → ℝ
  cholR : Matrix (Fin ny) (Fin ny) ℝ
  y : Fin ny → ℝ

/-- `cuthbertlib/kalman/generate.py:21-32`, `body`. -/
def body (rng : GenRng K) (x : Fin nx → ℝ) (k : K) : (Fin nx → ℝ) × Row nx ny :=
  let (F, c, cholQ) := transModel rng (rng.nth k 4 0) nx
  let x' := F *ᵥ x + c + cholQ *ᵥ rng.normal (rng.nth k 4 1) nx
  let (H, d, cholR) := obsModel rng (rng.nth k 4 2) nx ny
  let y := H *ᵥ x' + d + cholR *ᵥ rng.normal (rng.nth k 4 3) ny
  (x', ⟨F, c, cholQ, H, d, cholR, y⟩)

/-- `cuthbertlib/kalman/generate.py:13-37`, `generate_lgssm`, from `key = random.key(seed)` on. The key
`random.split(key, 5)[0]` is split again for the scan; numbers 3 and 4 are not used. -/
def lgssm (rng : GenRng K) (k : K) (nx ny T : ℕ) :
    (Fin nx → ℝ) × Matrix (Fin nx) (Fin nx) ℝ × List (Row nx ny) :=
  let (m0, cholP0) := initModel rng (rng.nth k 5 1) nx
  let x0 := m0 + cholP0 *ᵥ rng.normal (rng.nth k 5 2) nx
  (m0, cholP0, (laxScan (body rng) x0 (rng.split (rng.nth k 5 0) T)).2)

end

end Generate
end Cuthbert
