import Mathlib.MeasureTheory.Constructions.Pi
import Verif.Spec.Gaussian
import Verif.Spec.Random
import Verif.Spec.LGSSM
import Verif.Model.Generate

/-!
# Specification: simulating a random linear-Gaussian model

The parameters and the noise are independent; the noise is standard normal. `simulate` is the textbook
simulation of the state-space model with given parameters and given noise.
-/

namespace Cuthbert
namespace Generate
open MeasureTheory ProbabilityTheory Matrix

noncomputable section

variable {K : Type*} [MeasurableSpace K]

/-- Matrices of independent uniform numbers. -/
def unifM (m n : ℕ) : Measure (Fin m → Fin n → ℝ) := Measure.pi fun _ => Measure.pi fun _ => unif

/-- Matrices of independent standard normal numbers. -/
def normM (m n : ℕ) : Measure (Fin m → Fin n → ℝ) := Measure.pi fun _ => Measure.pi fun _ => gaussianReal 0 1

/-- Ideal random numbers; each field speaks about a key that is used once. -/
structure IdealGen (rng : GenRng K) (P : Measure K) : Prop where
  prob : IsProbabilityMeasure P
  split : ∀ n, MeasurePreserving (fun k (i : Fin n) => rng.nth k n i) P (Measure.pi fun _ => P)
  uniformM : ∀ m n, MeasurePreserving (fun k => rng.uniformM k m n) P (unifM m n)
  normal : ∀ n, MeasurePreserving (fun k => rng.normal k n) P (stdNormal (Fin n))
  normalM : ∀ m n, MeasurePreserving (fun k => rng.normalM k m n) P (normM m n)

/-- Parameters of one time step. -/
structure Par (nx ny : ℕ) where
  F : Matrix (Fin nx) (Fin nx) ℝ
  c : Fin nx → ℝ
  cholQ : Matrix (Fin nx) (Fin nx) ℝ
  H : Matrix (Fin ny) (Fin nx) ℝ
  d : Fin ny → ℝ
  cholR : Matrix (Fin ny) (Fin ny) ℝ

/-- The observations `y_1, ..., y_T` of the model with parameters `θ` started at `x`, for given process
and observation noise `(v_t, w_t)`: `x_t = F x_{t-1} + c + cholQ v_t`, `y_t = H x_t + d + cholR w_t`. -/
def simulate {nx ny : ℕ} : (T : ℕ) → (Fin T → Par nx ny) → (Fin nx → ℝ) →
    (Fin T → (Fin nx → ℝ) × (Fin ny → ℝ)) → Fin T → Fin ny → ℝ
  | 0, _, _, _ => fun i => i.elim0
  | T + 1, θ, x, e =>
    let x' := (θ 0).F *ᵥ x + (θ 0).c + (θ 0).cholQ *ᵥ (e 0).1
    Fin.cons ((θ 0).H *ᵥ x' + (θ 0).d + (θ 0).cholR *ᵥ (e 0).2)
      (simulate T (fun t => θ t.succ) x' fun t => e t.succ)

/-- The latent path `x_0, ..., x_T` of the same simulation, extended by `x_T` after the final time. -/
def simPath {nx ny : ℕ} : (T : ℕ) → (Fin T → Par nx ny) → (Fin nx → ℝ) →
    (Fin T → (Fin nx → ℝ) × (Fin ny → ℝ)) → ℕ → Fin nx → ℝ
  | 0, _, x, _ => fun _ => x
  | T + 1, θ, x, e => pathCons x (simPath T (fun t => θ t.succ)
      ((θ 0).F *ᵥ x + (θ 0).c + (θ 0).cholQ *ᵥ (e 0).1) fun t => e t.succ)

/-- The law of the noise of a whole simulation. -/
def noiseLaw (nx ny T : ℕ) : Measure ((Fin nx → ℝ) × (Fin T → (Fin nx → ℝ) × (Fin ny → ℝ))) :=
  (stdNormal (Fin nx)).prod (Measure.pi fun _ => (stdNormal (Fin nx)).prod (stdNormal (Fin ny)))

/-- A lower triangular matrix from a matrix of numbers. -/
def lower {n : ℕ} (u : Fin n → Fin n → ℝ) : Matrix (Fin n) (Fin n) ℝ := Matrix.of fun i j => if j ≤ i then u i j else 0

/-- The numbers from which the parameters of one step are made. -/
abbrev RawPar (nx ny : ℕ) :=
  ((Fin nx → Fin nx → ℝ) × (Fin nx → ℝ) × (Fin nx → Fin nx → ℝ)) ×
    (Fin ny → Fin nx → ℝ) × (Fin ny → ℝ) × (Fin ny → Fin ny → ℝ)

/-- Normal matrices and vectors and uniform lower triangular matrices; `F` is scaled by `0.75 / √nx` and
`c` by `0.1`. -/
def parOf {nx ny : ℕ} (r : RawPar nx ny) : Par nx ny where
  F := (0.75 / √nx) • Matrix.of r.1.1
  c := (0.1 : ℝ) • r.1.2.1
  cholQ := lower r.1.2.2
  H := Matrix.of r.2.1
  d := r.2.2.1
  cholR := lower r.2.2.2

/-- The law of all numbers from which the parameters are made: all independent. -/
def rawLaw (nx ny T : ℕ) :
    Measure (((Fin nx → ℝ) × (Fin nx → Fin nx → ℝ)) × (Fin T → RawPar nx ny)) :=
  ((stdNormal (Fin nx)).prod (unifM nx nx)).prod (Measure.pi fun _ =>
    ((normM nx nx).prod ((stdNormal (Fin nx)).prod (unifM nx nx))).prod
      ((normM ny nx).prod ((stdNormal (Fin ny)).prod (unifM ny ny))))

/-- The model with the parameters `θ` and the observations `y` as a list of steps. -/
def stepsOf {nx ny T : ℕ} (θ : Fin T → Par nx ny) (y : Fin T → Fin ny → ℝ) : List (Step nx ny) :=
  List.ofFn fun t => ⟨(θ t).F, (θ t).c, (θ t).cholQ, (θ t).H, (θ t).d, (θ t).cholR, fun i => some (y t i)⟩

end

end Generate
end Cuthbert
