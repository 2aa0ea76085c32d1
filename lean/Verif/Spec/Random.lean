import Mathlib.MeasureTheory.Constructions.Pi
import Mathlib.MeasureTheory.Constructions.BorelSpace.Real
import Mathlib.MeasureTheory.Measure.Lebesgue.Basic
import Mathlib.Data.Fintype.Perm
import Verif.Model.Resampling
import Verif.Spec.Resampling

/-!
# Specification: ideal random numbers

What the random-number functions would satisfy if keys were perfectly random: `P` is the law of a
fresh key. Each field speaks about a key that is used once; two uses of the same key are not
assumed to be independent. `Lemmas/Random.lean` constructs keys that satisfy all of this.
-/

namespace Cuthbert
open MeasureTheory
open scoped ENNReal Nat

noncomputable section

/-- Which of the four kinds of number `a` is, and its value if it is finite. -/
def Fl.code : Fl → Fin 4 × ℝ
  | .nan => (0, 0)
  | .ninf => (1, 0)
  | .pinf => (2, 0)
  | .fin r => (3, r)

/-- A set of floating-point numbers is measurable if its finite part is Borel. -/
instance : MeasurableSpace Fl := MeasurableSpace.comap Fl.code inferInstance

/-- The uniform distribution on `[0, 1)`. -/
def unif : Measure ℝ := volume.restrict (Set.Ico 0 1)

variable {K : Type*} [MeasurableSpace K]

/-- Ideal random numbers: the keys of a split are independent fresh keys, the draws of `uniform`
are independent and uniform, `permutation` is uniform over all permutations, `choice` and
`categorical` draw from the given probabilities. -/
structure IdealRng (rng : Rng K) (P : Measure K) : Prop where
  prob : IsProbabilityMeasure P
  split : ∀ n, MeasurePreserving (fun k (i : Fin n) => rng.nth k n i) P (Measure.pi fun _ => P)
  uniform : ∀ n, MeasurePreserving (fun k => rng.uniform k n) P (Measure.pi fun _ => unif)
  uniform0 : MeasurePreserving rng.uniform0 P unif
  permutation_measurable : ∀ n σ, MeasurableSet {k | rng.permutation k n = σ}
  permutation : ∀ n σ, P {k | rng.permutation k n = σ} = (n ! : ℝ≥0∞)⁻¹
  choice_measurable : ∀ (n : ℕ) [NeZero n],
    Measurable fun q : K × (Fin n → Fl) => rng.choice q.1 n q.2
  choice : ∀ (n : ℕ) [NeZero n] (p : Fin n → ℝ), (∀ i, 0 ≤ p i) → ∑ i, p i = 1 →
    ∀ i, P {k | rng.choice k n (fun j => Fl.fin (p j)) = i} = ENNReal.ofReal (p i)
  categorical_measurable : ∀ (n : ℕ) [NeZero n],
    Measurable fun q : K × (Fin n → Fl) => rng.categorical q.1 n q.2
  categorical : ∀ (n : ℕ) [NeZero n] (l : Fin n → Fl), IsLogits l →
    ∀ i, P {k | rng.categorical k n l = i} = ENNReal.ofReal (nw l i)

omit [MeasurableSpace K] in
/-- Splitting a key into fewer keys gives a prefix of splitting it into more, as JAX's default
(partitionable) generator does. -/
def PrefixSplit (rng : Prng K) : Prop :=
  ∀ k n m (i : ℕ) (hn : i < n) (hm : i < m), rng.nth k n ⟨i, hn⟩ = rng.nth k m ⟨i, hm⟩

/-- Splitting a key twice into different numbers of keys gives independent keys. -/
def IndepSplit (rng : Prng K) (P : Measure K) : Prop :=
  ∀ n m, n ≠ m → MeasurePreserving
    (fun k => ((fun i => rng.nth k n i : Fin n → K), (fun i => rng.nth k m i : Fin m → K))) P
    ((Measure.pi fun _ => P).prod (Measure.pi fun _ => P))

/-- The probability of `A` for random indices followed by a uniform random cyclic shift of the
slots. -/
def Resampling.shiftedLaw {N n : ℕ} [NeZero n] (P : Measure K) (idx : K → Fin n → Fin N)
    (A : Set (Fin n → Fin N)) : ℝ≥0∞ :=
  (n : ℝ≥0∞)⁻¹ * ∑ s : Fin n, P {k | (fun j => idx k (j - s)) ∈ A}

end

end Cuthbert
