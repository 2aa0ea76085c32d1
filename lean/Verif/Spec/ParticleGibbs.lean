import Verif.Spec.SMC

/-!
# Specification: a particle Gibbs sampler written with the library's functions

The library has conditional resampling functions but no conditional particle filter. The program below is the one a user
writes with them: `filter_combine` of `cuthbert/smc/particle_filter.py` (lines 186-219) with a conditional resampling
function in place of the resampling function, and with the reference path in the slot of the pivot.
-/

namespace Cuthbert.SMC
open MeasureTheory Resampling
open scoped ENNReal

noncomputable section

variable {K X Inp : Type} {N : ℕ}

/-- The type of the functions `conditional_resampling` of `cuthbertlib/resampling/`. -/
abbrev CondResampler (K : Type) (N : ℕ) (X : Type) :=
  K → (Fin N → Fl) → (Fin N → X) → (n : ℕ) → Fin n → Fin N → Except Err (Resampled N n X)

/-- One step: the slot `pivotIn` receives the state `x'` of the reference path, whose predecessor is in slot
`pivotOut`. -/
def conditionalStep (rng : Prng K) (mdl : FKModel K X Inp) (C : CondResampler K N X) (u : Inp) (k : K)
    (s : PFState K X Inp N) (x' : X) (pivotIn pivotOut : Fin N) : Except Err (PFState K X Inp N) := do
  let keys := rng.nth k (N + 1)
  let r ← C (keys 0) s.logWeights s.particles N pivotIn pivotOut
  let next := Function.update (fun i : Fin N => mdl.propagate (keys i.succ) (r.positions i) u) pivotIn x'
  let logWeights := fun i => mdl.logPotential (r.positions i) (next i) u + r.logits i
  return ⟨k, next, logWeights, r.idx, u, Fl.logsumexp logWeights - Fl.logsumexp r.logits + s.logZ⟩

/-- The steps after time `t`; `b` are the slots of the reference path `x` from time `t` on. -/
def conditionalSteps (rng : Prng K) (mdl : FKModel K X Inp) (C : CondResampler K N X) (x : ℕ → X) :
    (us : List Inp) → ℕ → (Fin (us.length + 1) → Fin N) → (Fin us.length → K) → PFState K X Inp N →
      Except Err (List (PFState K X Inp N))
  | [], _, _, _, s => .ok [s]
  | u :: us, t, b, keys, s => do
    let s' ← conditionalStep rng mdl C u (keys 0) s (x (t + 1)) (b 1) (b 0)
    let ss ← conditionalSteps rng mdl C x us (t + 1) (Fin.tail b) (Fin.tail keys) s'
    return s :: ss

/-- A particle filter whose slots `b` hold the reference path `x`: the states at all times. -/
def conditionalFilter (rng : Prng K) (mdl : FKModel K X Inp) (C : CondResampler K N X) (u0 : Inp) (us : List Inp)
    (x : ℕ → X) (b : Fin (us.length + 1) → Fin N) (k : K) : Except Err (List (PFState K X Inp N)) := do
  let keys := rng.nth k (us.length + 1)
  let s ← initPrepare rng mdl N u0 (some (keys 0))
  conditionalSteps rng mdl C x us 0 b (Fin.tail keys) { s with particles := Function.update s.particles (b 0) (x 0) }

/-- Conditional resampling as many particles as there are never raises, returns equal weights, and is described by
random indices that do not depend on the particles. -/
def CondUses (C : CondResampler K N X) (I : K → (Fin N → Fl) → Fin N → Fin N → Fin N → Fin N) : Prop :=
  ∀ k l pos b' b, C k l pos N b' b = .ok ⟨I k l b' b, fun _ => 0, fun m => pos (I k l b' b m)⟩

/-- There is a law of index vectors in which every slot holds particle `i` with probability `w_i`, and the conditional
indices have this law given that slot `b'` holds particle `b`. -/
structure ConditionalLaw [MeasurableSpace K] (P : Measure K) (I : K → (Fin N → Fl) → Fin N → Fin N → Fin N → Fin N) :
    Prop where
  measurable : ∀ b' b, Measurable fun q : K × (Fin N → Fl) => I q.1 q.2 b' b
  law : ∃ μ : (Fin N → Fl) → (Fin N → Fin N) → ℝ≥0∞, ∀ l, IsLogits l → ∀ b' b a,
    ENNReal.ofReal (nw l b) * P {k | I k l b' b = a} = if a b' = b then μ l a else 0

/-- The expectation of `f` after one sweep from the path `x`: the slots of the path are drawn uniformly, the conditional
filter and the smoother run with independent keys and return the paths `p`, and one of them is picked uniformly. -/
def gibbsSweep [MeasurableSpace K] {T n : ℕ} (P : Measure K)
    (p : (ℕ → X) → (Fin (T + 1) → Fin N) → K → K → Fin n → ℕ → X) (f : (ℕ → X) → ℝ≥0∞) (x : ℕ → X) : ℝ≥0∞ :=
  ∑ b : Fin (T + 1) → Fin N, ((N : ℝ≥0∞)⁻¹) ^ (T + 1) * ∫⁻ k, ∫⁻ k', (∑ m, f (p x b k k' m)) / n ∂P ∂P

end

end Cuthbert.SMC
