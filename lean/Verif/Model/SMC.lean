import Verif.Model.Resampling

/-!
# Particle filters and particle smoothers

Models `cuthbert/smc/particle_filter.py`, `cuthbert/smc/marginal_particle_filter.py`,
`cuthbert/smc/backward_sampler.py` and `cuthbertlib/smc/smoothing/`. The user's functions
`init_sample`, `propagate_sample` and `log_potential` are arbitrary; `X` is the type of one
particle, `Inp` the type of the model inputs at one time. `jax.vmap` over an axis is a function on
`Fin`. A state that could not be computed because an exception was raised is `.error`: the run
raises if and only if one of its states is an error.

Simplification: a missing key is `none`. The online functions raise `ValueError` for `None`;
through `cuthbert.filter` and `cuthbert.smoother` the key is then an uninitialised number, and
`random.split` raises instead. Both are modelled as `Err.valueError`.
-/

namespace Cuthbert.SMC

open Resampling

noncomputable section

variable {K X Inp : Type} {N : ℕ}

/-- `cuthbert/smc/types.py:16-72`: the three functions that describe a Feynman-Kac model. -/
structure FKModel (K X Inp : Type) where
  initSample : K → Inp → X
  propagate : K → X → Inp → X
  logPotential : X → X → Inp → Fl

/-! ### The particle filter -/

/-- `cuthbert/smc/particle_filter.py:20-28`, `ParticleFilterState`. -/
structure PFState (K X Inp : Type) (N : ℕ) where
  key : K
  particles : Fin N → X
  logWeights : Fin N → Fl
  ancestors : Fin N → Fin N
  modelInputs : Inp
  logZ : Fl

/-- `cuthbert/smc/particle_filter.py:79-122`, `init_prepare`. -/
def initPrepare (rng : Prng K) (mdl : FKModel K X Inp) (N : ℕ) (inp : Inp) (key : Option K) :
    Except Err (PFState K X Inp N) :=
  match key with
  | none => .error .valueError
  | some k =>
    -- 103-107
    let particles := fun i => mdl.initSample (rng.nth k N i) inp
    let logWeights : Fin N → Fl := fun _ => 0
    -- 110-112
    let logZ := Fl.logsumexp logWeights - Fl.log (Fl.fin N)
    .ok ⟨k, particles, logWeights, id, inp, logZ⟩

/-- `cuthbert/smc/particle_filter.py:125-161`, `filter_prepare`. `dummy` is the filling of the
particles (lines 148-152). -/
def filterPrepare (dummy : X) (N : ℕ) (inp : Inp) (key : Option K) :
    Except Err (PFState K X Inp N) :=
  match key with
  | none => .error .valueError
  | some k => .ok ⟨k, fun _ => dummy, fun _ => 0, id, inp, 0⟩

/-- `cuthbert/smc/particle_filter.py:164-219`, `filter_combine`. -/
def filterCombine (rng : Prng K) (mdl : FKModel K X Inp) (resample : Resampler K N X)
    (s1 s2 : PFState K X Inp N) : Except Err (PFState K X Inp N) := do
  -- 186
  let keys := rng.nth s1.key (N + 1)
  -- 189-191
  let r ← resample (keys 0) s1.logWeights s1.particles N
  -- 194-196
  let next := fun i : Fin N => mdl.propagate (keys i.succ) (r.positions i) s2.modelInputs
  -- 199-202
  let logPotentials := fun i => mdl.logPotential (r.positions i) (next i) s2.modelInputs
  let nextLogWeights := fun i => logPotentials i + r.logits i
  -- 205-209
  let incr := Fl.logsumexp nextLogWeights - Fl.logsumexp r.logits
  let logZ := incr + s1.logZ
  return ⟨s2.key, next, nextLogWeights, r.idx, s2.modelInputs, logZ⟩

/-- `cuthbert/smc/particle_filter.py:36-76`, `build_filter`. -/
def particleFilter (rng : Prng K) (mdl : FKModel K X Inp) (dummy : X) (N : ℕ)
    (resample : Resampler K N X) : FilterObj Inp K (Except Err (PFState K X Inp N)) where
  initPrepare := initPrepare rng mdl N
  filterPrepare := filterPrepare dummy N
  filterCombine := fun s1 s2 => do filterCombine rng mdl resample (← s1) (← s2)
  associative := false

/-! ### The marginal particle filter -/

/-- `cuthbert/smc/marginal_particle_filter.py:20-28`, `MarginalParticleFilterState`. -/
structure MPFState (K X Inp : Type) (N : ℕ) where
  key : K
  particles : Fin N → X
  logWeights : Fin N → Fl
  modelInputs : Inp
  logZ : Fl

/-- `cuthbert/smc/marginal_particle_filter.py:72-114`, `init_prepare`. -/
def marginalInitPrepare (rng : Prng K) (mdl : FKModel K X Inp) (N : ℕ) (inp : Inp)
    (key : Option K) : Except Err (MPFState K X Inp N) :=
  match key with
  | none => .error .valueError
  | some k =>
    -- 96-100
    let particles := fun i => mdl.initSample (rng.nth k N i) inp
    let logWeights : Fin N → Fl := fun _ => 0
    -- 103-105
    let logZ := Fl.logsumexp logWeights - Fl.log (Fl.fin N)
    .ok ⟨k, particles, logWeights, inp, logZ⟩

/-- `cuthbert/smc/marginal_particle_filter.py:117-152`, `filter_prepare`. -/
def marginalFilterPrepare (dummy : X) (N : ℕ) (inp : Inp) (key : Option K) :
    Except Err (MPFState K X Inp N) :=
  match key with
  | none => .error .valueError
  | some k => .ok ⟨k, fun _ => dummy, fun _ => 0, inp, 0⟩

/-- `cuthbert/smc/marginal_particle_filter.py:155-220`, `filter_combine`. -/
def marginalFilterCombine (rng : Prng K) (mdl : FKModel K X Inp) (resample : Resampler K N X)
    (s1 s2 : MPFState K X Inp N) : Except Err (MPFState K X Inp N) := do
  -- 178
  let keys := rng.nth s1.key (N + 1)
  -- 181-183
  let prevLogWeights := fun j => s1.logWeights j - Fl.logsumexp s1.logWeights
  -- 185-187
  let r ← resample (keys 0) s1.logWeights s1.particles N
  -- 189-191
  let next := fun i : Fin N => mdl.propagate (keys i.succ) (r.positions i) s2.modelInputs
  -- 194-205
  let logPotentials := fun i j => mdl.logPotential (s1.particles j) (next i) s2.modelInputs
  let nextLogWeights := fun i => Fl.logsumexp fun j => logPotentials i j + prevLogWeights j
  -- 208-212
  let incr := Fl.logsumexp nextLogWeights - Fl.logsumexp r.logits
  let logZ := incr + s1.logZ
  return ⟨s2.key, next, nextLogWeights, s2.modelInputs, logZ⟩

/-- `cuthbert/smc/marginal_particle_filter.py:31-69`, `build_filter`. -/
def marginalParticleFilter (rng : Prng K) (mdl : FKModel K X Inp) (dummy : X) (N : ℕ)
    (resample : Resampler K N X) : FilterObj Inp K (Except Err (MPFState K X Inp N)) where
  initPrepare := marginalInitPrepare rng mdl N
  filterPrepare := marginalFilterPrepare dummy N
  filterCombine := fun s1 s2 => do marginalFilterCombine rng mdl resample (← s1) (← s2)
  associative := false

/-! ### Backward sampling of one step -/

/-- `cuthbertlib/smc/smoothing/protocols.py:16-48`, a `BackwardSampling` function: the arguments
are `key`, `x0_all`, `x1_all`, `log_weight_x0_all`, `log_density` and `x1_ancestor_indices`, the
results are the samples and their indices. -/
abbrev BackwardSampler (K X : Type) (N : ℕ) :=
  K → (Fin N → X) → (n : ℕ) → (Fin n → X) → (Fin N → Fl) → (X → X → Fl) → (Fin n → Fin N) →
    Except Err ((Fin n → X) × (Fin n → Fin N))

/-- `cuthbertlib/smc/smoothing/tracing.py:16-45`, `simulate`. -/
def tracing : BackwardSampler K X N :=
  fun _ x0All _ _ _ _ ancestors => .ok (fun m => x0All (ancestors m), ancestors)

/-- `cuthbertlib/smc/smoothing/exact_sampling.py:18-58`, `log_weights_single` and
`log_weights`. -/
def exactLogWeights (x0All : Fin N → X) (x1 : X) (logWeight : Fin N → Fl)
    (logDensity : X → X → Fl) : Fin N → Fl :=
  let l := fun i => logWeight i + logDensity (x0All i) x1
  fun i => l i - Fl.logsumexp l

/-- `cuthbertlib/smc/smoothing/exact_sampling.py:61-78`, `simulate_single`. -/
def exactSingle [NeZero N] (rng : Rng K) (key : K) (x0All : Fin N → X) (x1 : X)
    (logWeight : Fin N → Fl) (logDensity : X → X → Fl) : X × Fin N :=
  let idx := rng.categorical key N (exactLogWeights x0All x1 logWeight logDensity)
  (x0All idx, idx)

/-- `cuthbertlib/smc/smoothing/exact_sampling.py:81-111`, `simulate`. -/
def exact [NeZero N] (rng : Rng K) : BackwardSampler K X N :=
  fun key x0All n x1All logWeight logDensity _ =>
    let out := fun m => exactSingle rng (rng.nth key n m) x0All (x1All m) logWeight logDensity
    .ok (fun m => (out m).1, fun m => (out m).2)

/-- The carry of the scan in `cuthbertlib/smc/smoothing/mcmc.py:51-76`: the index, the sample and
the log density of every slot. -/
structure IMHCarry (N n : ℕ) (X : Type) where
  idx : Fin n → Fin N
  x0 : Fin n → X
  logP : Fin n → Fl

/-- `cuthbertlib/smc/smoothing/mcmc.py:51-70`, `body`, for the two keys of one step. -/
def imhStep [NeZero N] (rng : Rng K) (pf : Platform) (x0All : Fin N → X) {n : ℕ}
    (x1All : Fin n → X) (logWeight : Fin N → Fl) (logDensity : X → X → Fl) (keyProp keyAcc : K)
    (c : IMHCarry N n X) : Except Err (IMHCarry N n X) := do
  -- 56-59
  let prop ← multinomial rng pf keyProp logWeight x0All n
  let propLogP := fun m => logDensity (prop.positions m) (x1All m)
  -- 61-64
  let logAlpha := fun m => propLogP m - c.logP m
  let lu := fun m => Fl.log (Fl.fin (rng.uniform keyAcc n m))
  let acc := fun m => Fl.ltb (lu m) (logAlpha m)
  -- 66-69
  let idx := fun m => if acc m then prop.idx m else c.idx m
  return ⟨idx, fun m => x0All (idx m), fun m => if acc m then propLogP m else c.logP m⟩

/-- The scan of `mcmc.py:76` over the first `t` steps; step `t` uses rows `2t` and `2t + 1` of the
keys of line 49. -/
def imhScan [NeZero N] (rng : Rng K) (pf : Platform) (x0All : Fin N → X) {n : ℕ}
    (x1All : Fin n → X) (logWeight : Fin N → Fl) (logDensity : X → X → Fl) (nSteps : ℕ)
    (keys : Fin (nSteps * 2) → K) (init : IMHCarry N n X) : (t : ℕ) → t ≤ nSteps →
      Except Err (IMHCarry N n X)
  | 0, _ => .ok init
  | t + 1, h => do
    let c ← imhScan rng pf x0All x1All logWeight logDensity nSteps keys init t (Nat.le_of_succ_le h)
    imhStep rng pf x0All x1All logWeight logDensity (keys ⟨t * 2, by omega⟩)
      (keys ⟨t * 2 + 1, by omega⟩) c

/-- `cuthbertlib/smc/smoothing/mcmc.py:19-77`, `simulate`. -/
def mcmc [NeZero N] (rng : Rng K) (pf : Platform) (nSteps : ℕ) : BackwardSampler K X N :=
  fun key x0All n x1All logWeight logDensity ancestors => do
    -- 43-47
    let subkey := rng.nth key 2 1
    let key := rng.nth key 2 0
    let (_, ancestors) ← tracing subkey x0All n x1All logWeight logDensity ancestors
    -- 49
    let keys := rng.nth key (nSteps * 2)
    -- 72-75
    let x0Init := fun m => x0All (ancestors m)
    let initLogP := fun m => logDensity (x1All m) (x0Init m)
    let init : IMHCarry N n X := ⟨ancestors, x0Init, initLogP⟩
    -- 76-77
    let out ← imhScan rng pf x0All x1All logWeight logDensity nSteps keys init nSteps le_rfl
    return (out.x0, out.idx)

/-! ### The particle smoother -/

/-- `cuthbert/smc/backward_sampler.py:25-37`, `ParticleSmootherState`. The number `n` of particles
is `n_filter_particles` for prepared states and `n_smoother_particles` for combined ones. -/
structure PSState (K X Inp : Type) (N : ℕ) where
  n : ℕ
  key : K
  particles : Fin n → X
  ancestors : Fin n → Fin N
  modelInputs : Inp
  logWeights : Fin n → Fl

/-- `cuthbert/smc/backward_sampler.py:75-124`, `convert_filter_to_smoother_state`. -/
def convertToSmoother (rng : Prng K) (dummy : Inp → Except Err Inp) (resample : Resampler K N X)
    (n : ℕ) (s : PFState K X Inp N) (inp : Option Inp) (key : Option K) :
    Except Err (PSState K X Inp N) :=
  match key with
  | none => .error .valueError
  | some k => do
    -- 104-107
    let dummyInputs ← dummy (inp.getD s.modelInputs)
    -- 109-115
    let resamplingKey := rng.nth k 2 1
    let k := rng.nth k 2 0
    let r ← resample resamplingKey s.logWeights s.particles n
    -- 117-123
    return ⟨n, k, r.positions, fun m => s.ancestors (r.idx m), dummyInputs, r.logits⟩

/-- `cuthbert/smc/backward_sampler.py:127-157`, `smoother_prepare`. -/
def smootherPrepare (s : PFState K X Inp N) (inp : Inp) (key : Option K) :
    Except Err (PSState K X Inp N) :=
  match key with
  | none => .error .valueError
  | some k => .ok ⟨N, k, s.particles, s.ancestors, inp, s.logWeights⟩

/-- `cuthbert/smc/backward_sampler.py:160-198`, `smoother_combine`. Its first argument is a
prepared state, which has `N` particles (anything else is not modelled; it could only occur in
parallel mode, for which arrays of different sizes cannot be concatenated). -/
def smootherCombine (sampler : BackwardSampler K X N) (logPotential : X → X → Inp → Fl)
    (s1 s2 : PSState K X Inp N) : Except Err (PSState K X Inp N) :=
  if h : s1.n = N then do
    -- 180-187
    let out ← sampler s1.key (fun i => s1.particles (i.cast h.symm)) s2.n s2.particles
      (fun i => s1.logWeights (i.cast h.symm))
      (fun x0 x1 => logPotential x0 x1 s2.modelInputs) s2.ancestors
    -- 189-198
    return ⟨s2.n, s1.key, out.1, fun m => s1.ancestors ((out.2 m).cast h.symm), s1.modelInputs,
      fun _ => -Fl.log (Fl.fin s2.n)⟩
  else .error .typeError

/-- `cuthbert/smc/backward_sampler.py:40-72`, `build_smoother`. -/
def particleSmoother (rng : Prng K) (dummy : Inp → Except Err Inp)
    (logPotential : X → X → Inp → Fl) (sampler : BackwardSampler K X N)
    (resample : Resampler K N X) (n : ℕ) :
    SmootherObj Inp K (Except Err (PFState K X Inp N)) (Except Err (PSState K X Inp N)) where
  convert := fun s inp key => do convertToSmoother rng dummy resample n (← s) (some inp) key
  smootherPrepare := fun s inp key => do smootherPrepare (← s) inp key
  smootherCombine := fun s1 s2 => do smootherCombine sampler logPotential (← s1) (← s2)
  associative := false

end

end Cuthbert.SMC
