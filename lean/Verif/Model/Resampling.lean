import Mathlib.Algebra.Order.Floor.Ring
import Mathlib.Algebra.Order.Archimedean.Real.Basic
import Mathlib.Logic.Equiv.Defs
import Verif.Model.Fl
import Verif.Model.Interface

/-!
# Resampling

Models `cuthbertlib/resampling/utils.py`, `systematic.py`, `multinomial.py`, `killing.py`,
`adaptive.py` and `cuthbertlib/smc/ess.py`. `N` is the number of particles (at least one),
`n` the number of sampled indices. Arrays are functions on `Fin`; a tree of arrays with a leading
particle axis is a function from particle indices to an arbitrary type `X`. Scalars are `Fl`, so
the behaviour for `-inf`, `+inf` and `nan` log-weights is part of the model.
-/

namespace Cuthbert

noncomputable section

open Classical in
/-- `a < b` as a boolean. -/
def Fl.ltb (a b : Fl) : Bool := decide (a < b)

open Classical in
/-- `a <= b` as a boolean. -/
def Fl.leb (a b : Fl) : Bool := decide (a ≤ b)

/-- `jnp.floor`. -/
def Fl.floor : Fl → Fl
  | .fin a => .fin (⌊a⌋ : ℤ)
  | a => a

/-- `jax.scipy.special.logsumexp` (and `jax.nn.logsumexp`, the same function). JAX subtracts a
finite maximum before exponentiating and adds it back; without rounding that is the plain formula,
`-inf` for entries that are all `-inf`. -/
def Fl.logsumexp {ι : Type*} [Fintype ι] (v : ι → Fl) : Fl := Fl.log (∑ i, Fl.exp (v i))

/-- The draws of `jax.random` used by the particle methods, with their range contracts:
`uniform(key, (n,))` and `uniform(key, ())` lie in `[0, 1)`, `permutation(key, x)` permutes,
`choice(key, n, p=p)` and `categorical(key, logits)` return an index in range (by typing). The
laws of the draws are in `Spec/Random.lean`. -/
structure Rng (K : Type*) extends Prng K where
  uniform : K → (n : ℕ) → Fin n → ℝ
  uniform_mem : ∀ k n i, 0 ≤ uniform k n i ∧ uniform k n i < 1
  uniform0 : K → ℝ
  uniform0_mem : ∀ k, 0 ≤ uniform0 k ∧ uniform0 k < 1
  permutation : K → (n : ℕ) → Equiv.Perm (Fin n)
  choice : K → (n : ℕ) → [NeZero n] → (Fin n → Fl) → Fin n
  categorical : K → (n : ℕ) → [NeZero n] → (Fin n → Fl) → Fin n

/-- `random.split(key, n)[i]`. -/
def Prng.nth {K : Type*} (rng : Prng K) (k : K) (n : ℕ) (i : Fin n) : K :=
  (rng.split k n)[i]'(by rw [rng.length_split]; exact i.isLt)

namespace Resampling

variable {K X : Type*} {N n : ℕ}

/-- The device on which `platform_dependent` dispatches (`utils.py:34-36`). -/
inductive Platform where
  | cpu
  | other
  deriving DecidableEq

/-- `cuthbertlib/resampling/utils.py:33`, the normalised weights. -/
def weights (logits : Fin N → Fl) : Fin N → Fl :=
  fun i => Fl.exp (logits i - Fl.logsumexp logits)

/-- `jnp.clip(idx, 0, N - 1)` for a natural number `idx` (`utils.py:45, 69`). -/
def clipIdx [NeZero N] (j : ℕ) : Fin N := ⟨min j (N - 1), by have := NeZero.pos N; omega⟩

/-- `cuthbertlib/resampling/utils.py:80-82`, the inner `while` loop: the index `j` and the
running sum `s` after skipping the particles whose cumulative weight is below `u`. -/
def advance (ws : Fin N → Fl) (u : Fl) (j : ℕ) (s : Fl) : ℕ × Fl :=
  if h : Fl.ltb s u ∧ j + 1 < N then advance ws u (j + 1) (s + ws ⟨j + 1, h.2⟩) else (j, s)
termination_by N - j

/-- `cuthbertlib/resampling/utils.py:74-83`: the loop variables `j` and `s` after the first `m`
iterations of the outer loop. -/
def numbaState [NeZero N] (su : Fin n → Fl) (ws : Fin N → Fl) : (m : ℕ) → m ≤ n → ℕ × Fl
  | 0, _ => (0, ws 0)
  | m + 1, h =>
    let js := numbaState su ws m (Nat.le_of_succ_le h)
    advance ws (su ⟨m, h⟩) js.1 js.2

/-- `cuthbertlib/resampling/utils.py:72-83`, `_inverse_cdf_numba`: entry `m` is `j` after
iteration `m`. -/
def inverseCdfNumba [NeZero N] (su : Fin n → Fl) (ws : Fin N → Fl) : Fin n → ℕ :=
  fun m => (numbaState su ws (m + 1) m.isLt).1

/-- `cuthbertlib/resampling/utils.py:50-69`, `_inverse_cdf_cpu`. -/
def inverseCdfCpu [NeZero N] (su : Fin n → Fl) (ws : Fin N → Fl) : Fin n → Fin N :=
  fun m => clipIdx (inverseCdfNumba su ws m)

/-- The order of `jnp.sort`: as `<`, with `nan` after every number. -/
def sortLt (a b : Fl) : Bool := Fl.ltb a b || (match a, b with
  | .nan, _ => false
  | _, .nan => true
  | _, _ => false)

/-- `jnp.cumsum` (`utils.py:43`, `multinomial.py:70`). -/
def cumsum (ws : Fin N → Fl) (i : Fin N) : Fl := ∑ j ∈ Finset.univ.filter (· ≤ i), ws j

/-- `jnp.searchsorted(cs, u, method="sort")` (side `left`) for one query: the rank of `u` in the
sorted array of `cs` and `u`, that is the number of entries that sort before `u`
(`utils.py:44`). -/
def searchsorted (cs : Fin N → Fl) (u : Fl) : ℕ :=
  (Finset.univ.filter fun i => sortLt (cs i) u = true).card

/-- `cuthbertlib/resampling/utils.py:39-47`, `_inverse_cdf_default`. -/
def inverseCdfDefault [NeZero N] (su : Fin n → Fl) (ws : Fin N → Fl) : Fin n → Fin N :=
  fun m => clipIdx (searchsorted (cumsum ws) (su m))

/-- `cuthbertlib/resampling/utils.py:14-36`, `inverse_cdf`. -/
def inverseCdf [NeZero N] (pf : Platform) (su : Fin n → Fl) (logits : Fin N → Fl) :
    Fin n → Fin N :=
  match pf with
  | .cpu => inverseCdfCpu su (weights logits)
  | .other => inverseCdfDefault su (weights logits)

/-- What a resampling function returns: indices, log-weights and positions. -/
structure Resampled (N n : ℕ) (X : Type*) where
  idx : Fin n → Fin N
  logits : Fin n → Fl
  positions : Fin n → X

/-- `cuthbertlib/resampling/utils.py:86-88`, `apply_resampling_indices`. -/
def applyIndices (positions : Fin N → X) (idx : Fin n → Fin N) : Fin n → X :=
  fun m => positions (idx m)

/-- `cuthbertlib/resampling/protocols.py:45-55`, a `Resampling` function for a fixed number of
particles. -/
abbrev Resampler (K : Type*) (N : ℕ) (X : Type*) :=
  K → (Fin N → Fl) → (Fin N → X) → (n : ℕ) → Except Err (Resampled N n X)

/-- `cuthbertlib/resampling/systematic.py:33`. -/
def systematicUniforms (u : ℝ) (n : ℕ) : Fin n → Fl := fun m => (Fl.fin u + Fl.fin m) / Fl.fin n

/-- `cuthbertlib/resampling/systematic.py:29-36`, `resampling`. -/
def systematic [NeZero N] (rng : Rng K) (pf : Platform) : Resampler K N X :=
  fun key logits positions n =>
    let us := systematicUniforms (rng.uniform0 key) n
    let idx := inverseCdf pf us logits
    .ok ⟨idx, fun _ => 0, applyIndices positions idx⟩

/-- `cuthbertlib/resampling/multinomial.py:65-71`, `_sorted_uniforms`, given the `n + 1` uniform
draws: `z[:-1] / z[-1]` for the cumulative sums `z` of `-log us`. -/
def sortedUniforms (us : Fin (n + 1) → ℝ) : Fin n → Fl :=
  let z := cumsum fun i => -Fl.log (Fl.fin (us i))
  fun m => z m.castSucc / z (Fin.last n)

/-- `cuthbertlib/resampling/multinomial.py:29-45`, `resampling`. -/
def multinomial [NeZero N] (rng : Rng K) (pf : Platform) : Resampler K N X :=
  fun key logits positions n =>
    -- 40
    let keyUniforms := rng.nth key 2 0
    let keyShuffle := rng.nth key 2 1
    -- 41-42
    let idx := inverseCdf pf (sortedUniforms (rng.uniform keyUniforms (n + 1))) logits
    -- 43
    let idx := fun m => idx (rng.permutation keyShuffle n m)
    .ok ⟨idx, fun _ => 0, applyIndices positions idx⟩

/-- `cuthbertlib/resampling/multinomial.py:48-62`, `conditional_resampling`. -/
def multinomialConditional [NeZero N] (rng : Rng K) (pf : Platform) (key : K)
    (logits : Fin N → Fl) (positions : Fin N → X) (n : ℕ) (pivotIn : Fin n) (pivotOut : Fin N) :
    Except Err (Resampled N n X) := do
  let r ← multinomial rng pf key logits positions n
  let idx := Function.update r.idx pivotIn pivotOut
  return ⟨idx, r.logits, applyIndices positions idx⟩

/-- `cuthbertlib/resampling/killing.py:53`, whether each particle survives its draw. -/
def survived (us : Fin N → ℝ) (logits : Fin N → Fl) : Fin N → Bool :=
  fun i => Fl.leb (Fl.log (Fl.fin (us i))) (logits i - Fl.vmax logits)

/-- `cuthbertlib/resampling/killing.py:37-61`, `resampling`. -/
def killing [NeZero N] (rng : Rng K) (pf : Platform) : Resampler K N X :=
  fun key logits positions n =>
    -- 42
    let key1 := rng.nth key 2 0
    let key2 := rng.nth key 2 1
    -- 44-48
    if h : n = N then do
      -- 50-57
      let alive := survived (rng.uniform key1 N) logits
      let other ← multinomial rng pf key2 logits positions N
      -- 58-61
      let idx := fun i => if alive i then i else other.idx i
      return ⟨fun m => idx (m.cast h), fun _ => 0, applyIndices positions fun m => idx (m.cast h)⟩
    else .error .assertionError

/-- `cuthbertlib/resampling/killing.py:98-100`, `_log1mexp`. -/
def log1mexp (x : Fl) : Fl := Fl.log (Fl.fin 1 - Fl.exp x)

/-- `jnp.roll(x, s)`: entry `i` is `x[(i - s) mod n]`. -/
def roll {α : Type*} (x : Fin n → α) (s : ℤ) : Fin n → α := fun i =>
  x ⟨(((i : ℕ) - s) % n).toNat, by
    have hn : (0 : ℤ) < n := by exact_mod_cast i.pos
    have h1 := Int.emod_nonneg ((i : ℕ) - s) hn.ne'
    have h2 := Int.emod_lt_of_pos ((i : ℕ) - s) hn
    omega⟩

/-- `cuthbertlib/resampling/killing.py:80-89`, the probabilities of the slot that receives the
pivot. -/
def pivotWeights (logits : Fin N → Fl) (n : ℕ) (pivotOut : Fin N) : Fin N → Fl :=
  let maxLogit := Fl.vmax logits
  let l := fun i => log1mexp (logits i - maxLogit)
  let l := fun i => l i - Fl.log (Fl.fin n)
  let l := Function.update l pivotOut Fl.ninf
  let li := log1mexp (Fl.logsumexp l)
  let l := Function.update l pivotOut li
  fun i => Fl.exp (l i - Fl.logsumexp l)

/-- `cuthbertlib/resampling/killing.py:64-95`, `conditional_resampling`. The number of indices is
`N`: for any other `n` the call of `resampling` raises (see `killing_conditional_raises`). -/
def killingConditional [NeZero N] (rng : Rng K) (pf : Platform) (key : K)
    (logits : Fin N → Fl) (positions : Fin N → X) (n : ℕ) (pivotIn : Fin n) (pivotOut : Fin N) :
    Except Err (Resampled N n X) := do
  -- 77-78
  let keyResample := rng.nth key 2 0
  let keyShuffle := rng.nth key 2 1
  let r ← killing rng pf keyResample logits positions n
  -- 80-90
  let pivot : ℕ := rng.choice keyShuffle N (pivotWeights logits n pivotOut)
  -- 91-95
  let idx := roll r.idx ((pivotIn : ℕ) - (pivot : ℤ))
  let idx := Function.update idx pivotIn pivotOut
  return ⟨idx, fun _ => 0, applyIndices positions idx⟩

/-- `cuthbertlib/resampling/systematic.py:75-85`: the draw shared by all strata. -/
def conditionalUniform (n : ℕ) (w0 : Fl) (U V : ℝ) : Fl :=
  let tmp := Fl.fin n * w0
  let tmpFloor := tmp.floor
  if Fl.leb tmp (Fl.fin 1) then tmp * Fl.fin U
  else
    let rem := tmp - tmpFloor
    let pCond := rem * (tmpFloor + Fl.fin 1) / tmp
    if Fl.ltb (Fl.fin V) pCond then rem * Fl.fin U else rem + (Fl.fin 1 - rem) * Fl.fin U

/-- `jnp.flatnonzero(mask, size=n, fill_value=-1)` (`systematic.py:91`). -/
def flatnonzero (mask : Fin n → Bool) : Fin n → ℤ := fun r =>
  match (List.finRange n |>.filter mask)[(r : ℕ)]? with
  | some i => (i : ℕ)
  | none => -1

/-- Reading a non-empty array at a computed non-negative index: JAX clamps the index
(`systematic.py:94`). -/
def readClamped {α : Type*} (x : Fin n → α) (hn : 0 < n) (j : ℕ) : α := x ⟨min j (n - 1), by omega⟩

/-- `cuthbertlib/resampling/systematic.py:66-95`, `conditional_resampling_0_to_0`, for the three
uniform draws `U, V, W`. -/
def systematicConditional00 [NeZero N] (pf : Platform) (U V W : ℝ) (logits : Fin N → Fl)
    (hn : 0 < n) : Fin n → Fin N :=
  -- 74-88
  let uniform := conditionalUniform n (weights logits 0) U V
  let linspace : Fin n → Fl := fun m => (Fl.fin m + uniform) / Fl.fin n
  let idx := inverseCdf pf linspace logits
  -- 90-94
  let nZero := (Finset.univ.filter fun m => idx m = 0).card
  let zeroLoc := flatnonzero fun m => decide (idx m = 0)
  let rollIdx := ⌊(nZero : ℝ) * W⌋.toNat
  if nZero = 1 then idx else roll idx (-(readClamped zeroLoc hn rollIdx))

/-- `cuthbertlib/resampling/systematic.py:39-63`, `conditional_resampling`. -/
def systematicConditional [NeZero N] (rng : Rng K) (pf : Platform) (key : K)
    (logits : Fin N → Fl) (positions : Fin N → X) (n : ℕ) (pivotIn : Fin n) (pivotOut : Fin N) :
    Except Err (Resampled N n X) :=
  -- 53
  let l := fun i => logits i - Fl.logsumexp logits
  -- 56-58
  let l := roll l (-((pivotOut : ℕ) : ℤ))
  let arange : Fin N → Fin N := roll id (-((pivotOut : ℕ) : ℤ))
  -- 60-63, draws of line 78
  let u := rng.uniform key 3
  let idx := systematicConditional00 pf (u 0) (u 1) (u 2) l pivotIn.pos
  let idx := fun m => arange (idx m)
  let idx := roll idx (pivotIn : ℕ)
  .ok ⟨idx, fun _ => 0, applyIndices positions idx⟩

/-- `cuthbertlib/smc/ess.py:9-15`, `log_ess`. -/
def logEss (logW : Fin N → Fl) : Fl :=
  Fl.fin 2 * Fl.logsumexp logW - Fl.logsumexp fun i => Fl.fin 2 * logW i

/-- `cuthbertlib/smc/ess.py:18-24`, `ess`. -/
def ess (logW : Fin N → Fl) : Fl := Fl.exp (logEss logW)

/-- `cuthbertlib/resampling/adaptive.py:18-72`, `ess_decorator`. -/
def adaptive (func : Resampler K N X) (threshold : ℝ) : Resampler K N X :=
  fun key logits positions n =>
    if h : n = N then
      if Fl.ltb (logEss logits) (Fl.log (Fl.fin (threshold * n))) then func key logits positions n
      else .ok ⟨fun m => m.cast h, fun m => logits (m.cast h), fun m => positions (m.cast h)⟩
    else .error .assertionError

end Resampling

end

end Cuthbert
