import Verif.Model.Scan

/-!
# The offline interface: `cuthbert.filter` and `cuthbert.smoother`

Models `cuthbert/inference.py`, `cuthbert/filtering.py` and `cuthbert/smoothing.py`.
Inputs, keys and states are arbitrary types; arrays with a leading time axis are lists.
-/

namespace Cuthbert

variable {Inp K S Q : Type*}

/-- The exceptions that the modelled functions raise. -/
inductive Err where
  /-- Indexing an empty leading axis (`x[0]`, `x[-1]` on a zero-length array). -/
  | indexError
  /-- `ValueError` (`cuthbert/smoothing.py:64-67`, `cuthbert/utils.py:9-32`). -/
  | valueError
  /-- A failed `assert`. -/
  | assertionError
  /-- `TypeError` raised by JAX for impossible static shapes. -/
  | typeError
  deriving DecidableEq, Repr

/-- `cuthbert/inference.py:183-198`, the `Filter` tuple. The key argument is `none`
when no key was given (then the code passes an uninitialised number). -/
structure FilterObj (Inp K S : Type*) where
  initPrepare : Inp → Option K → S
  filterPrepare : Inp → Option K → S
  filterCombine : S → S → S
  associative : Bool

/-- `cuthbert/inference.py:201-220`, the `Smoother` tuple; `S` is the filter state and
`Q` the smoother state. -/
structure SmootherObj (Inp K S Q : Type*) where
  convert : S → Inp → Option K → Q
  smootherPrepare : S → Inp → Option K → Q
  smootherCombine : Q → Q → Q
  associative : Bool

/-- `random.split(key, n)` with its shape contract: `n` keys. -/
structure Prng (K : Type*) where
  split : K → Nat → List K
  length_split : ∀ k n, (split k n).length = n

/-- `cuthbert/filtering.py:41-46` and `cuthbert/smoothing.py:69-74`:
`n` entries, uninitialised if no key is given. -/
def prepareKeys (rng : Prng K) (key : Option K) (n : Nat) : List (Option K) :=
  match key with
  | none => List.replicate n none
  | some k => (rng.split k n).map some

/-- What a call returns: whether a warning was issued, and the states or an exception. -/
structure Outcome (α : Type*) where
  warned : Bool
  result : Except Err (List α)

/-- `cuthbert/filtering.py:13-81`, `filter`. -/
def filter (rng : Prng K) (f : FilterObj Inp K S) (modelInputs : List Inp)
    (parallel : Bool) (key : Option K) : Outcome S :=
  -- 34-37
  let warned := parallel && !f.associative
  -- 39: `T + 1` is the number of inputs; 41-46
  let keys := prepareKeys rng key modelInputs.length
  -- 48-49
  match modelInputs[0]?, keys[0]? with
  | some inp0, some k0 =>
    let initState := f.initPrepare inp0 k0
    let prepInputs := modelInputs.tail
    if parallel then
      -- 53-63
      let others := List.zipWith f.filterPrepare prepInputs keys.tail
      ⟨warned, .ok (associativeScan f.filterCombine (initState :: others))⟩
    else
      -- 66-79
      let body := fun (prev : S) (ik : Inp × Option K) =>
        let prep := f.filterPrepare ik.1 ik.2
        let st := f.filterCombine prev prep
        (st, st)
      let states := (laxScan body initState (List.zip prepInputs keys.tail)).2
      ⟨warned, .ok (initState :: states)⟩
  | _, _ => ⟨warned, .error .indexError⟩

/-- `cuthbert/smoothing.py:14-128`, `smoother`. `modelInputsOf` is the attribute
`filter_states.model_inputs`; `dummy` is `dummy_tree_like` (`cuthbert/utils.py:22-32`),
which may raise. -/
def smoother (rng : Prng K) (modelInputsOf : S → Inp) (dummy : Inp → Except Err Inp)
    (s : SmootherObj Inp K S Q) (filterStates : List S) (modelInputs : Option (List Inp))
    (parallel : Bool) (key : Option K) : Outcome Q :=
  -- 44-48
  let warned := parallel && !s.associative
  -- 50-51
  let inputs := modelInputs.getD (filterStates.map modelInputsOf)
  -- 53-67: `T + 1` is the number of filter states
  let trimmed : Except Err (List Inp) :=
    if inputs.length = filterStates.length then .ok inputs.tail
    else if inputs.length + 1 ≠ filterStates.length then .error .valueError
    else .ok inputs
  match trimmed with
  | .error e => ⟨warned, .error e⟩
  | .ok inputs =>
    -- 69-74
    let keys := prepareKeys rng key filterStates.length
    -- 76-81
    match filterStates.getLast?, inputs[0]?, keys[0]? with
    | some finalFilter, some inp0, some k0 =>
      match dummy inp0 with
      | .error e => ⟨warned, .error e⟩
      | .ok dummyInputs =>
        let others := filterStates.dropLast
        -- 83-85
        let finalState := s.convert finalFilter dummyInputs k0
        if parallel then
          -- 87-104
          let prep := List.zipWith (fun (fi : S × Inp) k => s.smootherPrepare fi.1 fi.2 k)
            (List.zip others inputs) keys.tail
          ⟨warned, .ok (associativeScanRev (fun current next => s.smootherCombine next current)
            (prep ++ [finalState]))⟩
        else
          -- 107-126
          let body := fun (next : Q) (x : (S × Inp) × Option K) =>
            let prep := s.smootherPrepare x.1.1 x.1.2 x.2
            let st := s.smootherCombine prep next
            (st, st)
          let states := (laxScanRev body finalState
            (List.zip (List.zip others inputs) keys.tail)).2
          ⟨warned, .ok (states ++ [finalState])⟩
    | _, _, _ => ⟨warned, .error .indexError⟩

end Cuthbert
