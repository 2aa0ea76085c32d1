import Verif.Lemmas.Interface
import Mathlib.Algebra.Group.Nat.Defs

/-!
# Properties C01 - C08: the offline interface

The specification used in the statements is `Verif/Spec/Online.lean`. `keyAt rng key n t` is
subkey number `t` of `random.split(key, n)`, or nothing when no key was given.
-/

namespace Cuthbert
open Spec

variable {Inp K S Q β : Type*}

/-! ## C01 -/

/-- **C01.** The sequential filter returns one state per input and these are the states of the
online recursion, for every filter object, every non-empty input sequence and every key. -/
theorem filter_sequential_is_online_run (rng : Prng K) (f : FilterObj Inp K S)
    (inputs : List Inp) (key : Option K) (hne : inputs ≠ []) :
    ∃ states, (filter rng f inputs false key).result = .ok states ∧
      IsOnlineFilterRun f.initPrepare f.filterPrepare f.filterCombine inputs
        (keyAt rng key inputs.length) states := by
  cases inputs with
  | nil => exact absurd rfl hne
  | cons u us =>
    refine ⟨_, filter_sequential_eq rng f u us key, ?_, ?_, ?_⟩
    · rw [runningFold_length, filterElems_length, List.length_cons]
    · intro inp h
      simp only [List.getElem?_cons_zero, Option.some.injEq] at h
      subst h
      rw [runningFold_get_zero]
      rfl
    · intro t inp s h h'
      rw [List.getElem?_cons_succ] at h
      refine runningFold_get_succ _ _ _ t _ _ ?_ h'
      rw [filterElems_get, h]
      rfl

/-- **C01** (the specification determines the states). -/
theorem online_filter_run_unique {init prepare : Inp → K → S} {combine : S → S → S}
    {inputs : List Inp} {keys : Nat → K} {s₁ s₂ : List S}
    (h₁ : IsOnlineFilterRun init prepare combine inputs keys s₁)
    (h₂ : IsOnlineFilterRun init prepare combine inputs keys s₂) : s₁ = s₂ := by
  apply List.ext_getElem?
  intro t
  induction t with
  | zero =>
    cases h : inputs[0]? with
    | none =>
      have h0 : inputs.length = 0 := by simpa using h
      have e₁ := h₁.length_eq
      have e₂ := h₂.length_eq
      rw [List.getElem?_eq_none (by omega), List.getElem?_eq_none (by omega)]
    | some u => rw [h₁.first u h, h₂.first u h]
  | succ t ih =>
    have e₁ := h₁.length_eq
    have e₂ := h₂.length_eq
    rcases Nat.lt_or_ge (t + 1) inputs.length with hlt | hge
    · have hu : inputs[t + 1]? = some inputs[t + 1] := List.getElem?_eq_getElem hlt
      have hs : s₁[t]? = some s₁[t] := List.getElem?_eq_getElem (by omega)
      rw [h₁.step t _ _ hu hs, h₂.step t _ _ hu (ih ▸ hs)]
    · rw [List.getElem?_eq_none (by omega), List.getElem?_eq_none (by omega)]

/-- **C01** (error branch). Without any input both modes raise and return nothing. -/
theorem filter_empty_inputs (rng : Prng K) (f : FilterObj Inp K S) (parallel : Bool)
    (key : Option K) : (filter rng f [] parallel key).result = .error .indexError := by
  simp [filter]

/-- Non-vacuity for C01: summing integers, no key. -/
example : (filter (K := Unit) ⟨fun _ n => List.replicate n (), by simp⟩
    ⟨fun x _ => x, fun x _ => x, (· - ·), false⟩ [10, 2, 3] false none).result =
    .ok [(10 : Int), 8, 5] := by rfl

/-! ## C02 -/

/-- **C02.** If `filter_combine` is associative on a set `P` of states that contains the prepared
ones and is closed under `filter_combine`, the parallel filter returns exactly what the
sequential one returns, for every number of inputs. -/
theorem filter_parallel_eq_sequential (rng : Prng K) (f : FilterObj Inp K S)
    (inputs : List Inp) (key : Option K) (P : S → Prop)
    (hinit : ∀ u, inputs[0]? = some u → ∀ k, P (f.initPrepare u k))
    (hprep : ∀ t u, inputs[t + 1]? = some u → ∀ k, P (f.filterPrepare u k))
    (hcl : ∀ a b, P a → P b → P (f.filterCombine a b))
    (hassoc : ∀ a b c, P a → P b → P c →
      f.filterCombine (f.filterCombine a b) c = f.filterCombine a (f.filterCombine b c)) :
    (filter rng f inputs true key).result = (filter rng f inputs false key).result := by
  cases inputs with
  | nil => simp [filter]
  | cons u us =>
    rw [filter_parallel_eq, filter_sequential_eq,
      associativeScan_eq_runningFold _ P hcl hassoc]
    intro x hx
    rcases List.mem_cons.mp hx with rfl | hx
    · exact hinit u rfl _
    · obtain ⟨t, ht⟩ := List.mem_iff_getElem?.mp hx
      rw [filterElems_get] at ht
      cases hu : us[t]? with
      | none => rw [hu] at ht; cases ht
      | some v =>
        rw [hu, Option.map_some, Option.some.injEq] at ht
        rw [← ht]
        exact hprep t v hu _

/-- **C02** (up to an observation). Suppose that `view` forgets part of a state (for instance
which square root of a covariance is stored), that on `P` the view of a combination is a function
`op` of the views, and that `op` is associative on views of states in `P`. Then the parallel and
the sequential filter return states with the same views. -/
theorem filter_parallel_agrees_on_view (rng : Prng K) (f : FilterObj Inp K S)
    (inputs : List Inp) (key : Option K) (P : S → Prop) (view : S → β) (op : β → β → β)
    (hinit : ∀ u, inputs[0]? = some u → ∀ k, P (f.initPrepare u k))
    (hprep : ∀ t u, inputs[t + 1]? = some u → ∀ k, P (f.filterPrepare u k))
    (hcl : ∀ a b, P a → P b → P (f.filterCombine a b))
    (hop : ∀ a b, P a → P b → view (f.filterCombine a b) = op (view a) (view b))
    (hassoc : ∀ a b c, P a → P b → P c →
      op (op (view a) (view b)) (view c) = op (view a) (op (view b) (view c))) :
    (filter rng f inputs true key).result.map (List.map view) =
      (filter rng f inputs false key).result.map (List.map view) := by
  cases inputs with
  | nil => simp [filter, Except.map]
  | cons u us =>
    rw [filter_parallel_eq, filter_sequential_eq]
    have hmem : ∀ x ∈ f.initPrepare u (keyAt rng key (us.length + 1) 0) ::
        filterElems rng f us key, P x := by
      intro x hx
      rcases List.mem_cons.mp hx with rfl | hx
      · exact hinit u rfl _
      · obtain ⟨t, ht⟩ := List.mem_iff_getElem?.mp hx
        rw [filterElems_get] at ht
        cases hu : us[t]? with
        | none => rw [hu] at ht; cases ht
        | some v =>
          rw [hu, Option.map_some, Option.some.injEq] at ht
          rw [← ht]
          exact hprep t v hu _
    simp only [Except.map, Except.ok.injEq]
    rw [(associativeScan_map _ op view P hcl hop _ hmem).1,
      runningFold_map _ op view P hcl hop _ _ hmem, List.map_cons]
    refine associativeScan_eq_runningFold op (fun b => ∃ a, P a ∧ view a = b) ?_ ?_ _ _ ?_
    · rintro _ _ ⟨a, ha, rfl⟩ ⟨b, hb, rfl⟩
      exact ⟨_, hcl a b ha hb, hop a b ha hb⟩
    · rintro _ _ _ ⟨a, ha, rfl⟩ ⟨b, hb, rfl⟩ ⟨c, hc, rfl⟩
      exact hassoc a b c ha hb hc
    · intro y hy
      rw [← List.map_cons] at hy
      obtain ⟨x, hx, rfl⟩ := List.mem_map.mp hy
      exact ⟨x, hmem x hx, rfl⟩

/-- **C02** (the parallel filter always returns one state per input, associative or not). -/
theorem filter_parallel_length (rng : Prng K) (f : FilterObj Inp K S)
    (inputs : List Inp) (key : Option K) (hne : inputs ≠ []) :
    ∃ states, (filter rng f inputs true key).result = .ok states ∧
      states.length = inputs.length := by
  cases inputs with
  | nil => exact absurd rfl hne
  | cons u us =>
    refine ⟨_, filter_parallel_eq rng f u us key, ?_⟩
    rw [associativeScan_length, List.length_cons, filterElems_length, List.length_cons]

/-- Non-vacuity for C02: list concatenation (associative, not commutative). -/
example (inputs : List (List Nat)) : (filter (K := Unit) ⟨fun _ n => List.replicate n (), by simp⟩
    ⟨fun x _ => x, fun x _ => x, (· ++ ·), true⟩ inputs true none).result =
    (filter (K := Unit) ⟨fun _ n => List.replicate n (), by simp⟩
    ⟨fun x _ => x, fun x _ => x, (· ++ ·), true⟩ inputs false none).result :=
  filter_parallel_eq_sequential _ _ _ _ (fun _ => True) (by simp) (by simp) (by simp)
    (by simp [List.append_assoc])

/-- The associativity hypothesis of C02 cannot be dropped: with subtraction the parallel filter
differs from the sequential one already for four inputs. -/
theorem filter_parallel_needs_associativity :
    (filter (K := Unit) ⟨fun _ n => List.replicate n (), by simp⟩
      ⟨fun x _ => x, fun x _ => x, fun (a b : Int) => a - b, false⟩ [1, 2, 3, 4] true none).result ≠
    (filter (K := Unit) ⟨fun _ n => List.replicate n (), by simp⟩
      ⟨fun x _ => x, fun x _ => x, fun (a b : Int) => a - b, false⟩ [1, 2, 3, 4] false none).result := by
  rw [filter_parallel_eq, filter_sequential_eq]
  intro h
  simp only [Except.ok.injEq] at h
  have h1 := congrArg (fun l => l[3]?) h
  simp [filterElems, prepareKeys, runningFold, associativeScan_cons_cons, pairUp,
    everyOther, interleave_cons_left, interleave_nil_left,
    associativeScan_singleton] at h1

/-! ## C03 -/

/-- `random.split(key, n)` is a prefix of `random.split(key, m)` for `n ≤ m` (true for JAX's
partitionable generator, not for the older one). -/
def Prng.PrefixStable (rng : Prng K) : Prop :=
  ∀ k n m, n ≤ m → (rng.split k m).take n = rng.split k n

theorem keyAt_prefixStable (rng : Prng K) (key : Option K)
    (hk : key = none ∨ rng.PrefixStable) (n m t : Nat) (hnm : n ≤ m) (ht : t < n) :
    keyAt rng key n t = keyAt rng key m t := by
  rcases hk with rfl | hk
  · rfl
  · cases key with
    | none => rfl
    | some k =>
      simp only [keyAt, Option.bind_some]
      rw [← hk k n m hnm, List.getElem?_take_of_lt ht]

/-- **C03** (causality). The states returned for the first `n` inputs are what one gets by running
the filter on these inputs only: later inputs never influence earlier states. With a key this
needs a prefix-stable `random.split`, because the filter splits the key into as many parts as
there are inputs. -/
theorem filter_causal (rng : Prng K) (f : FilterObj Inp K S) (past future : List Inp)
    (key : Option K) (hk : key = none ∨ rng.PrefixStable) (hne : past ≠ [])
    (statesPast statesAll : List S)
    (h₁ : (filter rng f past false key).result = .ok statesPast)
    (h₂ : (filter rng f (past ++ future) false key).result = .ok statesAll) :
    statesAll.take past.length = statesPast := by
  obtain ⟨s₁, e₁, r₁⟩ := filter_sequential_is_online_run rng f past key hne
  obtain ⟨s₂, e₂, r₂⟩ := filter_sequential_is_online_run rng f (past ++ future) key (by simp [hne])
  rw [h₁, Except.ok.injEq] at e₁
  rw [h₂, Except.ok.injEq] at e₂
  subst e₁ e₂
  have hlen := r₂.length_eq
  rw [List.length_append] at hlen
  apply List.ext_getElem?
  intro t
  rcases Nat.lt_or_ge t past.length with ht | ht
  · rw [List.getElem?_take_of_lt ht]
    induction t with
    | zero =>
      have hu : past[0]? = some past[0] := List.getElem?_eq_getElem ht
      rw [r₁.first _ hu, r₂.first _ (by rw [List.getElem?_append_left ht]; exact hu)]
      rw [keyAt_prefixStable rng key hk past.length (past ++ future).length 0 (by simp) ht]
    | succ t ih =>
      have hu : past[t + 1]? = some past[t + 1] := List.getElem?_eq_getElem ht
      have hs : statesAll[t]? = some statesAll[t] := List.getElem?_eq_getElem (by omega)
      rw [r₁.step t _ _ hu ((ih (by omega)) ▸ hs),
        r₂.step t _ _ (by rw [List.getElem?_append_left ht]; exact hu) hs]
      rw [keyAt_prefixStable rng key hk past.length (past ++ future).length (t + 1) (by simp) ht]
  · rw [List.getElem?_eq_none (by rw [List.length_take]; omega),
      List.getElem?_eq_none (by rw [r₁.length_eq]; exact ht)]

/-- **C03** (resuming online). Every state after the first is obtained from its predecessor by one
online step with the current input; so online filtering continued from any state of an offline
run reproduces the rest of the offline run. -/
theorem filter_resume (rng : Prng K) (f : FilterObj Inp K S) (past future : List Inp)
    (key : Option K) (hne : past ≠ []) (statesAll : List S)
    (h : (filter rng f (past ++ future) false key).result = .ok statesAll)
    (s : S) (hs : statesAll[past.length - 1]? = some s) :
    statesAll.drop past.length =
      (List.scanl (fun (s : S) (uk : Inp × Option K) =>
          f.filterCombine s (f.filterPrepare uk.1 uk.2)) s
        (future.mapIdx fun i u =>
          (u, keyAt rng key (past.length + future.length) (past.length + i)))).tail := by
  obtain ⟨s₂, e₂, r₂⟩ := filter_sequential_is_online_run rng f (past ++ future) key (by simp [hne])
  rw [h, Except.ok.injEq] at e₂
  subst e₂
  have hp : 0 < past.length := List.length_pos_iff.mpr hne
  have hlen := r₂.length_eq
  rw [List.length_append] at hlen
  have key' : ∀ i, i ≤ future.length →
      statesAll[past.length - 1 + i]? = (List.scanl (fun (s : S) (uk : Inp × Option K) =>
          f.filterCombine s (f.filterPrepare uk.1 uk.2)) s
        (future.mapIdx fun i u =>
          (u, keyAt rng key (past.length + future.length) (past.length + i))))[i]? := by
    intro i
    induction i with
    | zero => intro _; simpa using hs
    | succ i ih =>
      intro hi
      have ih := ih (by omega)
      have hs' : statesAll[past.length - 1 + i]? = some statesAll[past.length - 1 + i] :=
        List.getElem?_eq_getElem (by omega)
      rw [hs'] at ih
      have hu : (past ++ future)[past.length - 1 + i + 1]? = some future[i] := by
        rw [List.getElem?_append_right (by omega)]
        rw [show past.length - 1 + i + 1 - past.length = i by omega]
        exact List.getElem?_eq_getElem (by omega)
      rw [← Nat.add_assoc, r₂.step _ _ _ hu hs', List.getElem?_succ_scanl, ← ih]
      simp only [List.getElem?_mapIdx, Option.bind_some]
      rw [List.getElem?_eq_getElem (show i < future.length by omega)]
      simp only [Option.map_some, List.length_append]
      rw [show past.length - 1 + i + 1 = past.length + i by omega]
  apply List.ext_getElem?
  intro t
  rw [List.getElem?_drop, List.getElem?_tail]
  rcases Nat.lt_or_ge t future.length with ht | ht
  · rw [← key' (t + 1) (by omega)]
    congr 1; omega
  · rw [List.getElem?_eq_none (by omega), List.getElem?_eq_none (by simp [List.length_scanl]; omega)]

/-- Why C03 needs a prefix-stable `split`: with a generator whose subkeys depend on how many are
requested, the first state of an offline run depends on how many inputs follow. -/
theorem filter_causal_needs_prefixStable :
    ∃ (rng : Prng Nat) (f : FilterObj Nat Nat Nat) (past future : List Nat)
      (s₁ s₂ : List Nat), past ≠ [] ∧
      (filter rng f past false (some 0)).result = .ok s₁ ∧
      (filter rng f (past ++ future) false (some 0)).result = .ok s₂ ∧
      s₂.take past.length ≠ s₁ :=
  ⟨⟨fun _ n => List.replicate n n, by simp⟩, ⟨fun _ k => k.getD 0, fun u _ => u, fun a _ => a, true⟩,
    [0], [0], [1], [2, 2], by simp, rfl, rfl, by decide⟩

/-- Non-vacuity for C03: a prefix-stable generator exists and a run with inputs on both sides. -/
example : Prng.PrefixStable (K := Nat) ⟨fun k n => (List.range n).map (· + k), by simp⟩ := by
  intro k n m h
  simp only [← List.map_take, List.take_range, Nat.min_eq_left h]

/-! ## C04 -/

/-- **C04.** The sequential smoother returns one state per filter state, and they are the states of
the backward recursion: the input used at time `t` is that of the transition from `t` to `t+1`.
Holds for every smoother object, any `T ≥ 1`. -/
theorem smoother_sequential_is_backward_run (rng : Prng K) (inputsOf : S → Inp)
    (dummy : Inp → Except Err Inp) (s : SmootherObj Inp K S Q) (filterStates : List S)
    (inputs : List Inp) (key : Option K) (hlen : inputs.length + 1 = filterStates.length)
    (u : Inp) (hu : inputs[0]? = some u) (d : Inp) (hd : dummy u = .ok d) :
    ∃ states, (smoother rng inputsOf dummy s filterStates (some inputs) false key).result
        = .ok states ∧
      IsBackwardSmootherRun (fun x k => s.convert x d k) s.smootherPrepare s.smootherCombine
        filterStates inputs (keyAt rng key filterStates.length 0)
        (fun t => keyAt rng key filterStates.length (t + 1)) states := by
  have hne : filterStates ≠ [] := by intro e; subst e; simp at hlen
  have hlast : filterStates.getLast? = some (filterStates.getLast hne) :=
    List.getLast?_eq_some_getLast hne
  refine ⟨backFold s.smootherCombine
    (s.convert (filterStates.getLast hne) d (keyAt rng key filterStates.length 0))
    (smootherElems rng s filterStates inputs key), ?_, ?_, ?_, ?_⟩
  · rw [smoother_core_eq rng inputsOf dummy s filterStates inputs hlen, smootherCore, hlast, hu]
    simp [hd]
  · rw [backFold_length, smootherElems_length _ _ _ _ _ hlen, hlen]
  · intro x hx
    rw [hlast, Option.some.injEq] at hx
    rw [backFold_getLast, hx]
  · intro t x u s' hx hu' hs
    exact backFold_step _ _ _ t _ _ (smootherElems_get _ _ _ _ _ hlen t x u hx hu') hs

/-- Non-vacuity for C04 and C05: T = 2. -/
example : (smoother (K := Unit) ⟨fun _ n => List.replicate n (), by simp⟩ (fun x : Int => x)
    .ok ⟨fun x _ _ => x, fun x u _ => x + 10 * u, (· - ·), false⟩ [1, 2, 3] (some [4, 5]) false
    none).result = .ok [(-8 : Int), 49, 3] := by rfl

/-! ## C05 -/

/-- **C05.** With `T + 1` filter states, `T` inputs and `T + 1` inputs whose first is arbitrary give
the same outcome; so does omitting the inputs when the states carry them. -/
theorem smoother_inputs_T_or_T_plus_one (rng : Prng K) (inputsOf : S → Inp)
    (dummy : Inp → Except Err Inp) (s : SmootherObj Inp K S Q) (filterStates : List S)
    (u : Inp) (inputs : List Inp) (hlen : inputs.length + 1 = filterStates.length)
    (parallel : Bool) (key : Option K) :
    smoother rng inputsOf dummy s filterStates (some (u :: inputs)) parallel key =
      smoother rng inputsOf dummy s filterStates (some inputs) parallel key ∧
    (filterStates.map inputsOf = u :: inputs →
      smoother rng inputsOf dummy s filterStates none parallel key =
        smoother rng inputsOf dummy s filterStates (some inputs) parallel key) := by
  refine ⟨smoother_trim_eq rng inputsOf dummy s filterStates u inputs hlen parallel key, ?_⟩
  intro h
  rw [smoother_none_eq, h]
  exact smoother_trim_eq rng inputsOf dummy s filterStates u inputs hlen parallel key

/-- **C05** (rejected lengths). `ValueError` is raised exactly for lengths other than `T` and
`T + 1` (assuming the template input itself is accepted). -/
theorem smoother_rejects_iff (rng : Prng K) (inputsOf : S → Inp)
    (dummy : Inp → Except Err Inp) (hdummy : ∀ u, ∃ d, dummy u = .ok d)
    (s : SmootherObj Inp K S Q) (filterStates : List S) (hne : filterStates ≠ [])
    (inputs : List Inp) (parallel : Bool) (key : Option K) :
    (smoother rng inputsOf dummy s filterStates (some inputs) parallel key).result
        = .error .valueError ↔
      inputs.length ≠ filterStates.length - 1 ∧ inputs.length ≠ filterStates.length := by
  have hpos : 0 < filterStates.length := List.length_pos_iff.mpr hne
  constructor
  · intro h
    by_contra hc
    have hcore : ∀ ins : List Inp, ins.length + 1 = filterStates.length →
        (smoother rng inputsOf dummy s filterStates (some ins) parallel key).result
          ≠ .error .valueError := by
      intro ins hl
      rw [smoother_core_eq rng inputsOf dummy s filterStates ins hl, smootherCore,
        List.getLast?_eq_some_getLast hne]
      cases ins with
      | nil => simp
      | cons v vs =>
        obtain ⟨d, hd⟩ := hdummy v
        simp [hd]
    by_cases h1 : inputs.length + 1 = filterStates.length
    · exact hcore inputs h1 h
    · have h2 : inputs.length = filterStates.length := by
        by_contra h3; exact hc ⟨by omega, h3⟩
      cases inputs with
      | nil => simp at h2; omega
      | cons v vs =>
        rw [smoother_trim_eq rng inputsOf dummy s filterStates v vs (by simpa using h2)] at h
        exact hcore vs (by simpa using h2) h
  · rintro ⟨h1, h2⟩
    simp only [smoother, Option.getD_some]
    rw [if_neg h2, if_pos (by omega)]

/-- **C05** (no transition). With a single filter state (`T = 0`) an accepted call raises: there is no
transition input to build the template of the final state from. So `smoother` cannot be used on a
filter run without any step. -/
theorem smoother_T_zero (rng : Prng K) (inputsOf : S → Inp)
    (dummy : Inp → Except Err Inp) (s : SmootherObj Inp K S Q) (x : S)
    (inputs : Option (List Inp)) (hl : ∀ l, inputs = some l → l.length ≤ 1)
    (parallel : Bool) (key : Option K) :
    (smoother rng inputsOf dummy s [x] inputs parallel key).result = .error .indexError := by
  have hcore := smoother_core_eq rng inputsOf dummy s [x] [] rfl parallel key
  have : smootherCore rng dummy s [x] [] parallel key = .error .indexError := by simp [smootherCore]
  rw [this] at hcore
  match inputs with
  | none =>
    rw [smoother_none_eq]
    simp only [List.map_cons, List.map_nil]
    rw [smoother_trim_eq rng inputsOf dummy s [x] (inputsOf x) [] rfl, hcore]
  | some [] => exact hcore
  | some [u] => rw [smoother_trim_eq rng inputsOf dummy s [x] u [] rfl, hcore]
  | some (u :: v :: l) => have := hl _ rfl; simp at this

/-! ## C06 -/

/-- **C06** (up to an observation). If the view of a combination is an associative function of the
views, on a closed set of states that contains the converted final state and the state prepared at
each time, then the parallel and the sequential smoother return states with the same views, for
every number of filter states. (`T` inputs are given here; by C05 this covers `T + 1` inputs and the
default.) -/
theorem smoother_parallel_agrees_on_view (rng : Prng K) (inputsOf : S → Inp)
    (dummy : Inp → Except Err Inp) (s : SmootherObj Inp K S Q) (filterStates : List S)
    (inputs : List Inp) (hlen : inputs.length + 1 = filterStates.length)
    (key : Option K) (P : Q → Prop) (view : Q → β) (op : β → β → β)
    (hconv : ∀ x, filterStates.getLast? = some x → ∀ u k, P (s.convert x u k))
    (hprep : ∀ (t : Nat) x u, filterStates[t]? = some x → inputs[t]? = some u → ∀ k,
      P (s.smootherPrepare x u k))
    (hcl : ∀ a b, P a → P b → P (s.smootherCombine a b))
    (hop : ∀ a b, P a → P b → view (s.smootherCombine a b) = op (view a) (view b))
    (hassoc : ∀ a b c, P a → P b → P c →
      op (op (view a) (view b)) (view c) = op (view a) (op (view b) (view c))) :
    (smoother rng inputsOf dummy s filterStates (some inputs) true key).result.map (List.map view) =
      (smoother rng inputsOf dummy s filterStates (some inputs) false key).result.map
        (List.map view) := by
  rw [smoother_core_eq rng inputsOf dummy s filterStates inputs hlen,
    smoother_core_eq rng inputsOf dummy s filterStates inputs hlen, smootherCore, smootherCore]
  have hne : filterStates ≠ [] := by intro e; subst e; simp at hlen
  rw [List.getLast?_eq_some_getLast hne]
  cases hins : inputs[0]? with
  | none => rfl
  | some u =>
    simp only
    cases hd : dummy u with
    | error e => rfl
    | ok d =>
      simp only [if_true, Bool.false_eq_true, if_false, Except.map, Except.ok.injEq]
      generalize hfin : s.convert (filterStates.getLast hne) d
        (keyAt rng key filterStates.length 0) = fin
      have hPfin : P fin := hfin ▸ hconv _ (List.getLast?_eq_some_getLast hne) _ _
      have hPel : ∀ e ∈ smootherElems rng s filterStates inputs key, P e := by
        intro e he
        obtain ⟨t, ht⟩ := List.mem_iff_getElem?.mp he
        have htl : t < inputs.length := by
          rw [← smootherElems_length rng s filterStates inputs key hlen]
          rcases Nat.lt_or_ge t (smootherElems rng s filterStates inputs key).length with h | h
          · exact h
          · rw [List.getElem?_eq_none h] at ht; cases ht
        have hx : filterStates[t]? = some filterStates[t] := List.getElem?_eq_getElem (by omega)
        have hu : inputs[t]? = some inputs[t] := List.getElem?_eq_getElem htl
        rw [smootherElems_get rng s filterStates inputs key hlen t _ _ hx hu, Option.some.injEq] at ht
        rw [← ht]
        exact hprep t _ _ hx hu _
      have hall : ∀ e ∈ fin :: (smootherElems rng s filterStates inputs key).reverse, P e := by
        intro e he
        rcases List.mem_cons.mp he with rfl | he
        · exact hPfin
        · exact hPel e (List.mem_reverse.mp he)
      have hcl' : ∀ a b, P a → P b → P (s.smootherCombine b a) :=
        fun a b ha hb => hcl b a hb ha
      have hop' : ∀ a b, P a → P b →
          view (s.smootherCombine b a) = (fun x y => op y x) (view a) (view b) :=
        fun a b ha hb => hop b a hb ha
      rw [← runningFold_reverse, associativeScanRev, List.reverse_append, List.reverse_singleton,
        List.singleton_append, List.map_reverse, List.map_reverse,
        (associativeScan_map (fun c n => s.smootherCombine n c) (fun x y => op y x) view P
          hcl' hop' _ hall).1,
        runningFold_map (fun c n => s.smootherCombine n c) (fun x y => op y x) view P
          hcl' hop' _ _ hall, List.map_cons]
      congr 1
      refine associativeScan_eq_runningFold _ (fun b => ∃ a, P a ∧ view a = b) ?_ ?_ _ _ ?_
      · rintro _ _ ⟨a, ha, rfl⟩ ⟨b, hb, rfl⟩
        exact ⟨_, hcl b a hb ha, hop b a hb ha⟩
      · rintro _ _ _ ⟨a, ha, rfl⟩ ⟨b, hb, rfl⟩ ⟨c, hc, rfl⟩
        exact (hassoc c b a hc hb ha).symm
      · intro y hy
        rw [← List.map_cons] at hy
        obtain ⟨x, hx, rfl⟩ := List.mem_map.mp hy
        exact ⟨x, hall x hx, rfl⟩

/-- **C06.** If `smoother_combine` is associative on a closed set of states containing the converted
final state and the prepared ones, the parallel smoother returns exactly what the sequential one
returns. -/
theorem smoother_parallel_eq_sequential (rng : Prng K) (inputsOf : S → Inp)
    (dummy : Inp → Except Err Inp) (s : SmootherObj Inp K S Q) (filterStates : List S)
    (inputs : List Inp) (hlen : inputs.length + 1 = filterStates.length)
    (key : Option K) (P : Q → Prop)
    (hconv : ∀ x, filterStates.getLast? = some x → ∀ u k, P (s.convert x u k))
    (hprep : ∀ (t : Nat) x u, filterStates[t]? = some x → inputs[t]? = some u → ∀ k,
      P (s.smootherPrepare x u k))
    (hcl : ∀ a b, P a → P b → P (s.smootherCombine a b))
    (hassoc : ∀ a b c, P a → P b → P c →
      s.smootherCombine (s.smootherCombine a b) c = s.smootherCombine a (s.smootherCombine b c)) :
    (smoother rng inputsOf dummy s filterStates (some inputs) true key).result =
      (smoother rng inputsOf dummy s filterStates (some inputs) false key).result := by
  have := smoother_parallel_agrees_on_view rng inputsOf dummy s filterStates inputs hlen key P id
    s.smootherCombine hconv hprep hcl (fun _ _ _ _ => rfl) hassoc
  have hid : ∀ r : Except Err (List Q), r.map (List.map id) = r := by
    intro r; cases r <;> simp [Except.map]
  rwa [hid, hid] at this

/-- Non-vacuity for C06: concatenation, non-commutative, any number of states. -/
example (xs us : List (List Nat)) (h : us.length + 1 = xs.length) :
    (smoother (K := Unit) ⟨fun _ n => List.replicate n (), by simp⟩ (fun x : List Nat => x)
      .ok ⟨fun x _ _ => x, fun x u _ => x ++ u, (· ++ ·), true⟩ xs (some us) true none).result =
    (smoother (K := Unit) ⟨fun _ n => List.replicate n (), by simp⟩ (fun x : List Nat => x)
      .ok ⟨fun x _ _ => x, fun x u _ => x ++ u, (· ++ ·), true⟩ xs (some us) false none).result :=
  smoother_parallel_eq_sequential _ _ _ _ _ _ h _ (fun _ => True) (by simp) (by simp) (by simp)
    (by simp [List.append_assoc])

/-! ## C07 -/

/-- A filter object that records which inputs and keys were handed to which call: `true` marks the
initial preparation. Combining concatenates the records. -/
def recordingFilter (Inp K : Type*) : FilterObj Inp K (List (Bool × Inp × Option K)) where
  initPrepare u k := [(true, u, k)]
  filterPrepare u k := [(false, u, k)]
  filterCombine := (· ++ ·)
  associative := true

/-- **C07** (filter). In both modes the state at time `t` is made of exactly one preparation per time
`0..t`, in this order; time `i` receives input `i` and subkey `i` out of the `T + 1` subkeys the key
is split into (no key: nothing), and only time 0 is prepared as initial state. -/
theorem filter_key_allocation (rng : Prng K) (inputs : List Inp) (hne : inputs ≠ [])
    (parallel : Bool) (key : Option K) :
    ∃ states, (filter rng (recordingFilter Inp K) inputs parallel key).result = .ok states ∧
      states.length = inputs.length ∧
      ∀ t, t < inputs.length → states[t]? = some ((inputs.take (t + 1)).mapIdx fun i u =>
        (i == 0, u, keyAt rng key inputs.length i)) := by
  have hpar : (filter rng (recordingFilter Inp K) inputs parallel key).result =
      (filter rng (recordingFilter Inp K) inputs false key).result := by
    cases parallel with
    | false => rfl
    | true =>
      exact filter_parallel_eq_sequential rng _ _ _ (fun _ => True) (by simp) (by simp) (by simp)
        (by simp [recordingFilter, List.append_assoc])
  rw [hpar]
  obtain ⟨states, h, r⟩ := filter_sequential_is_online_run rng (recordingFilter Inp K) inputs key hne
  refine ⟨states, h, r.length_eq, ?_⟩
  intro t
  induction t with
  | zero =>
    intro ht
    rw [r.first _ (List.getElem?_eq_getElem ht)]
    cases inputs with
    | nil => exact absurd rfl hne
    | cons u us => simp [recordingFilter]
  | succ t ih =>
    intro ht
    have ih := ih (by omega)
    rw [r.step t _ _ (List.getElem?_eq_getElem ht) ih]
    rw [List.take_add_one (i := t + 1), List.getElem?_eq_getElem ht, Option.toList_some,
      List.mapIdx_append]
    simp [recordingFilter, Nat.min_eq_left (show t + 1 ≤ inputs.length by omega)]

/-- A smoother object that records the calls made. `true` marks the conversion. -/
def recordingSmoother (Inp K S : Type*) :
    SmootherObj Inp K S (List (Bool × S × Inp × Option K)) where
  convert x u k := [(true, x, u, k)]
  smootherPrepare x u k := [(false, x, u, k)]
  smootherCombine := (· ++ ·)
  associative := true

/-- **C07** (smoother). In both modes the smoother state at time `t < T` is made of one preparation for
each time `t..T-1` (time `i` with filter state `i`, the input of the transition `i → i+1` and
subkey `i + 1` out of `T + 1`), followed by one conversion of the final state with subkey 0 and the
template input. -/
theorem smoother_key_allocation (rng : Prng K) (inputsOf : S → Inp)
    (dummy : Inp → Except Err Inp) (filterStates : List S) (inputs : List Inp)
    (hlen : inputs.length + 1 = filterStates.length) (u : Inp) (hu : inputs[0]? = some u) (d : Inp)
    (hd : dummy u = .ok d) (x : S) (hx : filterStates.getLast? = some x)
    (parallel : Bool) (key : Option K) :
    ∃ states, (smoother rng inputsOf dummy (recordingSmoother Inp K S) filterStates (some inputs)
        parallel key).result = .ok states ∧ states.length = filterStates.length ∧
      ∀ t, t ≤ inputs.length → states[t]? = some
        ((((filterStates.zip inputs).mapIdx fun i xu =>
            (false, xu.1, xu.2, keyAt rng key filterStates.length (i + 1))).drop t) ++
          [(true, x, d, keyAt rng key filterStates.length 0)]) := by
  have hpar : (smoother rng inputsOf dummy (recordingSmoother Inp K S) filterStates (some inputs)
      parallel key).result = (smoother rng inputsOf dummy (recordingSmoother Inp K S) filterStates
      (some inputs) false key).result := by
    cases parallel with
    | false => rfl
    | true =>
      exact smoother_parallel_eq_sequential rng _ _ _ _ _ hlen _ (fun _ => True) (by simp)
        (by simp) (by simp) (by simp [recordingSmoother, List.append_assoc])
  rw [hpar]
  obtain ⟨states, h, r⟩ := smoother_sequential_is_backward_run rng inputsOf dummy
    (recordingSmoother Inp K S) filterStates inputs key hlen u hu d hd
  refine ⟨states, h, r.length_eq, ?_⟩
  have hsl := r.length_eq
  -- backward induction on the distance to the end
  have key' : ∀ n t, t + n = inputs.length → states[t]? = some
        ((((filterStates.zip inputs).mapIdx fun i xu =>
            (false, xu.1, xu.2, keyAt rng key filterStates.length (i + 1))).drop t) ++
          [(true, x, d, keyAt rng key filterStates.length 0)]) := by
    intro n
    induction n with
    | zero =>
      intro t ht
      have hl := r.last x hx
      rw [List.getLast?_eq_getElem?] at hl
      rw [show states.length - 1 = t by omega] at hl
      rw [hl, List.drop_of_length_le (by simp; omega)]
      rfl
    | succ n ih =>
      intro t ht
      have ih := ih (t + 1) (by omega)
      have hx' : filterStates[t]? = some filterStates[t] := List.getElem?_eq_getElem (by omega)
      have hu' : inputs[t]? = some inputs[t] := List.getElem?_eq_getElem (by omega)
      rw [r.step t _ _ _ hx' hu' ih]
      rw [List.drop_eq_getElem_cons (i := t) (by simp; omega)]
      simp [recordingSmoother]
  intro t ht
  exact key' (inputs.length - t) t (by omega)

/-- Non-vacuity for C07: two inputs, a key, subkeys `100, 101`. -/
example : (filter ⟨fun k n => (List.range n).map (· + k), by simp⟩ (recordingFilter Char Nat)
    ['a', 'b'] false (some 100)).result =
    .ok [[(true, 'a', some 100)], [(true, 'a', some 100), (false, 'b', some 101)]] := by rfl

/-! ## C08 -/

/-- **C08** (filter). The `associative` flag has no influence on the result; a warning is issued exactly
when `parallel` is requested for an object that is not flagged associative. -/
theorem filter_flag_only_warns (rng : Prng K) (f : FilterObj Inp K S) (b : Bool)
    (inputs : List Inp) (parallel : Bool) (key : Option K) :
    (filter rng { f with associative := b } inputs parallel key).result =
      (filter rng f inputs parallel key).result ∧
    ((filter rng f inputs parallel key).warned = true ↔
      parallel = true ∧ f.associative = false) := by
  unfold filter
  constructor
  · dsimp only
    split <;> [split <;> rfl; rfl]
  · dsimp only
    split <;> [split <;> simp; simp]

/-- **C08** (smoother). -/
theorem smoother_flag_only_warns (rng : Prng K) (inputsOf : S → Inp)
    (dummy : Inp → Except Err Inp) (s : SmootherObj Inp K S Q) (b : Bool) (filterStates : List S)
    (inputs : Option (List Inp)) (parallel : Bool) (key : Option K) :
    (smoother rng inputsOf dummy { s with associative := b } filterStates inputs parallel key).result
      = (smoother rng inputsOf dummy s filterStates inputs parallel key).result ∧
    ((smoother rng inputsOf dummy s filterStates inputs parallel key).warned = true ↔
      parallel = true ∧ s.associative = false) := by
  unfold smoother
  constructor
  · dsimp only
    split
    · rfl
    · split
      · split
        · rfl
        · split <;> rfl
      · rfl
  · dsimp only
    split
    · simp
    · split
      · split
        · simp
        · split <;> simp
      · simp

end Cuthbert
