import Verif.Model.RoundedWeights
import Verif.Model.SMC

/-!
# The particle filter with rounded arithmetic

As in `Model/SMC.lean`, with the operations of an arithmetic `A` for the weights and the log normalising constant. The
rounding inside the user's functions and inside the resampling function is not modelled here: they are arbitrary functions.
-/

namespace Cuthbert.SMC
open Cuthbert Resampling Discrete

noncomputable section

variable {K X Inp : Type} {N : ℕ}

/-- `cuthbert/smc/particle_filter.py:79-122`, `init_prepare`. -/
def initPrepareWith (A : Arith) (rng : Prng K) (mdl : FKModel K X Inp) (N : ℕ) (inp : Inp) (key : Option K) :
    Except Err (PFState K X Inp N) :=
  match key with
  | none => .error .valueError
  | some k =>
    -- 103-107
    let particles := fun i => mdl.initSample (rng.nth k N i) inp
    let logWeights : Fin N → Fl := fun _ => 0
    -- 110-112
    let logZ := A.sub (logsumexpWith A logWeights) (A.log (Fl.fin N))
    .ok ⟨k, particles, logWeights, id, inp, logZ⟩

/-- `cuthbert/smc/particle_filter.py:164-219`, `filter_combine`. -/
def filterCombineWith (A : Arith) (rng : Prng K) (mdl : FKModel K X Inp) (resample : Resampler K N X)
    (s1 s2 : PFState K X Inp N) : Except Err (PFState K X Inp N) := do
  -- 186
  let keys := rng.nth s1.key (N + 1)
  -- 189-191
  let r ← resample (keys 0) s1.logWeights s1.particles N
  -- 194-196
  let next := fun i : Fin N => mdl.propagate (keys i.succ) (r.positions i) s2.modelInputs
  -- 199-202
  let logPotentials := fun i => mdl.logPotential (r.positions i) (next i) s2.modelInputs
  let nextLogWeights := fun i => A.add (logPotentials i) (r.logits i)
  -- 205-209
  let incr := A.sub (logsumexpWith A nextLogWeights) (logsumexpWith A r.logits)
  let logZ := A.add incr s1.logZ
  return ⟨s2.key, next, nextLogWeights, r.idx, s2.modelInputs, logZ⟩

/-- `cuthbert/smc/particle_filter.py:36-76`, `build_filter`. -/
def particleFilterWith (A : Arith) (rng : Prng K) (mdl : FKModel K X Inp) (dummy : X) (N : ℕ)
    (resample : Resampler K N X) : FilterObj Inp K (Except Err (PFState K X Inp N)) where
  initPrepare := initPrepareWith A rng mdl N
  filterPrepare := filterPrepare dummy N
  filterCombine := fun s1 s2 => do filterCombineWith A rng mdl resample (← s1) (← s2)
  associative := false

end

end Cuthbert.SMC
