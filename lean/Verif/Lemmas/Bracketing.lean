import Verif.Lemmas.Interface

/-!
# The parallel scan brackets its operands

Without associativity, the result of the parallel scan at position `t` is still obtained from the first `t + 1` elements,
in their order, by combining adjacent blocks.
-/

namespace Cuthbert
open Spec

variable {α : Type*}

/-- A way to combine elements of a sequence. -/
inductive Bracket where
  | leaf (t : ℕ)
  | node (l r : Bracket)

namespace Bracket

/-- The result of the combination. -/
def eval (op : α → α → α) (x : ℕ → α) : Bracket → α
  | leaf t => x t
  | node l r => op (eval op x l) (eval op x r)

/-- The positions that are combined, from left to right. -/
def leaves : Bracket → List ℕ
  | leaf t => [t]
  | node l r => leaves l ++ leaves r

theorem leaves_pos : ∀ b : Bracket, 1 ≤ b.leaves.length
  | leaf t => (Nat.le_refl 1)
  | node l r => by
    rw [leaves, List.length_append]
    exact Nat.le_trans (leaves_pos l) (Nat.le_add_right _ _)

/-- A property of blocks of adjacent elements that holds for single elements and is preserved by the combination of adjacent
blocks holds for every bracketing of a block. -/
theorem eval_block (op : α → α → α) (x : ℕ → α) (N : ℕ) (P : ℕ → ℕ → α → Prop) (h1 : ∀ t < N, P t 1 (x t))
    (h2 : ∀ s m m' a b, 1 ≤ m → 1 ≤ m' → s + m + m' ≤ N → P s m a → P (s + m) m' b → P s (m + m') (op a b)) :
    ∀ (b : Bracket) (s m : ℕ), b.leaves = List.range' s m → s + m ≤ N → P s m (b.eval op x)
  | leaf t, s, m, hb, hN => by
    have hm : m = 1 := by
      have := congrArg List.length hb
      simpa [leaves] using this.symm
    subst hm
    have ht : t = s := by simpa [leaves] using hb
    subst ht
    exact h1 t (by omega)
  | node l r, s, m, hb, hN => by
    rw [leaves] at hb
    have hlen : l.leaves.length + r.leaves.length = m := by
      have := congrArg List.length hb
      simpa using this
    have hsplit : l.leaves ++ r.leaves =
        List.range' s l.leaves.length ++ List.range' (s + l.leaves.length) r.leaves.length := by
      rw [hb, ← hlen, List.range'_append_1]
    obtain ⟨e1, e2⟩ := List.append_inj hsplit (by simp)
    have p1 := leaves_pos l
    have p2 := leaves_pos r
    rw [← hlen]
    exact h2 _ _ _ _ _ p1 p2 (by omega) (eval_block op x N P h1 h2 l _ _ e1 (by omega))
      (eval_block op x N P h1 h2 r _ _ e2 (by omega))

end Bracket

theorem runningFold_append_get (l : List ℕ) (s : ℕ) : ∀ (m : ℕ) (t : ℕ) (v : List ℕ),
    (runningFold (· ++ ·) l ((List.range' s m).map fun t => [t]))[t]? = some v → v = l ++ List.range' s t := by
  intro m
  induction m generalizing l s with
  | zero =>
    intro t v h
    cases t with
    | zero => simpa [runningFold, eq_comm] using h
    | succ t => simp [runningFold] at h
  | succ m ih =>
    intro t v h
    rw [List.range'_succ, List.map_cons, runningFold] at h
    cases t with
    | zero => simpa [eq_comm] using h
    | succ t =>
      rw [List.getElem?_cons_succ] at h
      rw [ih _ _ _ _ h, List.range'_succ, List.append_assoc, List.singleton_append]

/-- Every result of the parallel scan is a bracketing of a prefix. -/
theorem associativeScan_bracket (op : α → α → α) (x : ℕ → α) (N t : ℕ) (v : α)
    (h : (associativeScan op ((List.range' 0 N).map x))[t]? = some v) :
    ∃ b : Bracket, b.leaves = List.range' 0 (t + 1) ∧ v = b.eval op x := by
  obtain ⟨xs, hxs⟩ : ∃ xs, xs = (List.range' 0 N).map Bracket.leaf := ⟨_, rfl⟩
  have e1 : (List.range' 0 N).map x = xs.map (Bracket.eval op x) := by
    rw [hxs, List.map_map]
    rfl
  have m1 := (associativeScan_map Bracket.node op (Bracket.eval op x) (fun _ => True) (fun _ _ _ _ => trivial)
    (fun _ _ _ _ => rfl) xs (fun _ _ => trivial)).1
  have m2 := (associativeScan_map Bracket.node (· ++ ·) Bracket.leaves (fun _ => True) (fun _ _ _ _ => trivial)
    (fun _ _ _ _ => rfl) xs (fun _ _ => trivial)).1
  rw [e1, ← m1, List.getElem?_map] at h
  cases hb : (associativeScan Bracket.node xs)[t]? with
  | none => rw [hb] at h; cases h
  | some b =>
    rw [hb, Option.map_some, Option.some.injEq] at h
    refine ⟨b, ?_, h.symm⟩
    have h3 : (associativeScan (· ++ ·) (xs.map Bracket.leaves))[t]? = some b.leaves := by
      rw [← m2, List.getElem?_map, hb, Option.map_some]
    have e2 : xs.map Bracket.leaves = (List.range' 0 N).map fun t => [t] := by
      rw [hxs, List.map_map]
      rfl
    rw [e2] at h3
    cases N with
    | zero => simp [associativeScan_nil] at h3
    | succ N =>
      rw [List.range'_succ, List.map_cons, associativeScan_eq_runningFold (· ++ ·) (fun _ => True)
        (fun _ _ _ _ => trivial) (fun a b c _ _ _ => List.append_assoc a b c) _ _ (fun _ _ => trivial)] at h3
      rw [runningFold_append_get _ _ _ _ _ h3, List.range'_succ, List.singleton_append]

/-- The parallel scan, for properties of blocks. -/
theorem associativeScan_blocks (op : α → α → α) (x : ℕ → α) (N : ℕ) (P : ℕ → ℕ → α → Prop) (h1 : ∀ t < N, P t 1 (x t))
    (h2 : ∀ s m m' a b, 1 ≤ m → 1 ≤ m' → s + m + m' ≤ N → P s m a → P (s + m) m' b → P s (m + m') (op a b))
    (t : ℕ) (v : α) (h : (associativeScan op ((List.range' 0 N).map x))[t]? = some v) : P 0 (t + 1) v := by
  obtain ⟨b, hb, rfl⟩ := associativeScan_bracket op x N t v h
  have ht : t < N := by
    by_contra hc
    rw [List.getElem?_eq_none (by rw [associativeScan_length]; simp; omega)] at h
    cases h
  exact b.eval_block op x N P h1 h2 _ _ hb (by omega)

/-- The sequential scan, for properties of prefixes. -/
theorem runningFold_blocks (op : α → α → α) (P : ℕ → α → Prop) : ∀ (xs : List α) (a : α) (s : ℕ), P s a →
    (∀ t y a, xs[t]? = some y → P (s + t) a → P (s + t + 1) (op a y)) →
    ∀ t v, (runningFold op a xs)[t]? = some v → P (s + t) v
  | [], a, s, ha, _, t, v, h => by
    cases t with
    | zero =>
      have : a = v := by simpa [runningFold] using h
      exact this ▸ ha
    | succ t => simp [runningFold] at h
  | y :: ys, a, s, ha, hs, t, v, h => by
    rw [runningFold] at h
    cases t with
    | zero =>
      have : a = v := by simpa using h
      exact this ▸ ha
    | succ t =>
      rw [List.getElem?_cons_succ] at h
      have h3 := runningFold_blocks op P ys (op a y) (s + 1) (hs 0 y a rfl ha)
        (fun t' y' a' hy' ha' => by
          have h4 := hs (t' + 1) y' a' (by simpa using hy') (by rwa [show s + (t' + 1) = s + 1 + t' by omega])
          rwa [show s + (t' + 1) + 1 = s + 1 + t' + 1 by omega] at h4) t v h
      rwa [show s + (t + 1) = s + 1 + t by omega]

theorem list_eq_map_range (xs : List α) (d : α) : xs = (List.range' 0 xs.length).map fun t => xs[t]?.getD d := by
  refine List.ext_getElem? fun t => ?_
  rw [List.getElem?_map]
  rcases Nat.lt_or_ge t xs.length with h | h
  · rw [List.getElem?_range' h, List.getElem?_eq_getElem h]
    simp [List.getElem?_eq_getElem h]
  · rw [List.getElem?_eq_none h, List.getElem?_eq_none (by simpa using h)]
    rfl

variable {Inp K S : Type*}

/-- A property of blocks of times that holds for the prepared states and is preserved by the combination of adjacent blocks
holds for the states that the filter returns. Sequentially, the second block has length one. -/
theorem filter_blocks (rng : Prng K) (f : FilterObj Inp K S) (inputs : List Inp) (hne : inputs ≠ []) (parallel : Bool)
    (key : Option K) (P : ℕ → ℕ → S → Prop) (h0 : ∀ u k, inputs[0]? = some u → P 0 1 (f.initPrepare u k))
    (h1 : ∀ t u k, inputs[t + 1]? = some u → P (t + 1) 1 (f.filterPrepare u k))
    (h2 : ∀ s m m' a b, 1 ≤ m → 1 ≤ m' → (parallel = true ∨ s = 0 ∧ m' = 1) → s + m + m' ≤ inputs.length → P s m a →
      P (s + m) m' b → P s (m + m') (f.filterCombine a b)) :
    ∃ states, (filter rng f inputs parallel key).result = .ok states ∧ states.length = inputs.length ∧
      ∀ t s, states[t]? = some s → P 0 (t + 1) s := by
  cases inputs with
  | nil => exact absurd rfl hne
  | cons u₀ us =>
    have hleaf : ∀ t y, (f.initPrepare u₀ (keyAt rng key (us.length + 1) 0) :: filterElems rng f us key)[t]? = some y →
        P t 1 y := by
      intro t y hy
      cases t with
      | zero =>
        have : f.initPrepare u₀ (keyAt rng key (us.length + 1) 0) = y := by simpa using hy
        exact this ▸ h0 u₀ _ rfl
      | succ t =>
        rw [List.getElem?_cons_succ, filterElems_get] at hy
        cases hu : us[t]? with
        | none => rw [hu] at hy; cases hy
        | some u =>
          rw [hu, Option.map_some, Option.some.injEq] at hy
          exact hy ▸ h1 t u _ (by simpa using hu)
    cases parallel with
    | false =>
      refine ⟨_, filter_sequential_eq .., by rw [runningFold_length, filterElems_length, List.length_cons], ?_⟩
      intro t s hs
      have h3 := runningFold_blocks f.filterCombine (fun t s => P 0 (t + 1) s) (filterElems rng f us key) _ 0
        (hleaf 0 _ rfl) (fun t y a hy ha => by
          rw [Nat.zero_add] at ha ⊢
          have hlt : t < us.length := by
            by_contra hc
            rw [List.getElem?_eq_none (by rw [filterElems_length]; omega)] at hy
            cases hy
          have h4 := hleaf (t + 1) y (by rwa [List.getElem?_cons_succ])
          exact h2 0 (t + 1) 1 a y (by omega) (Nat.le_refl 1) (Or.inr ⟨rfl, rfl⟩) (by rw [List.length_cons]; omega) ha
            (by rwa [Nat.zero_add])) t s hs
      rwa [Nat.zero_add] at h3
    | true =>
      refine ⟨_, filter_parallel_eq .., by rw [associativeScan_length, List.length_cons, filterElems_length,
        List.length_cons], ?_⟩
      intro t s hs
      obtain ⟨d, hd⟩ : ∃ d, d = f.initPrepare u₀ (keyAt rng key (us.length + 1) 0) := ⟨_, rfl⟩
      rw [← hd] at hleaf hs
      rw [list_eq_map_range (d :: filterElems rng f us key) d] at hs
      refine associativeScan_blocks f.filterCombine _ _ P ?_ ?_ t s hs
      · intro t ht
        rw [List.getElem?_eq_getElem ht]
        exact hleaf t _ (List.getElem?_eq_getElem ht)
      · intro s m m' a b hm hm' hN ha hb
        refine h2 s m m' a b hm hm' (Or.inl rfl) ?_ ha hb
        rwa [List.length_cons, filterElems_length] at hN

/-- The scans of a non-empty list, for properties of blocks. -/
theorem scan_blocks (op : α → α → α) (a : α) (xs : List α) (parallel : Bool) (P : ℕ → ℕ → α → Prop)
    (hleaf : ∀ t y, (a :: xs)[t]? = some y → P t 1 y)
    (h2 : ∀ s m m' a b, 1 ≤ m → 1 ≤ m' → (parallel = true ∨ s = 0 ∧ m' = 1) → s + m + m' ≤ xs.length + 1 → P s m a →
      P (s + m) m' b → P s (m + m') (op a b)) (t : ℕ) (v : α)
    (hv : (if parallel then associativeScan op (a :: xs) else runningFold op a xs)[t]? = some v) : P 0 (t + 1) v := by
  cases parallel with
  | false =>
    have h3 := runningFold_blocks op (fun t s => P 0 (t + 1) s) xs a 0 (hleaf 0 _ rfl) (fun t y a hy ha => by
        rw [Nat.zero_add] at ha ⊢
        have hlt : t < xs.length := by
          by_contra hc
          rw [List.getElem?_eq_none (by omega)] at hy
          cases hy
        have h4 := hleaf (t + 1) y (by rwa [List.getElem?_cons_succ])
        exact h2 0 (t + 1) 1 a y (by omega) (Nat.le_refl 1) (Or.inr ⟨rfl, rfl⟩) (by omega) ha
          (by rwa [Nat.zero_add])) t v (by simpa using hv)
    rwa [Nat.zero_add] at h3
  | true =>
    rw [if_pos rfl, list_eq_map_range (a :: xs) a] at hv
    refine associativeScan_blocks op _ _ P ?_ ?_ t v hv
    · intro t ht
      rw [List.getElem?_eq_getElem ht]
      exact hleaf t _ (List.getElem?_eq_getElem ht)
    · intro s m m' a b hm hm' hN ha hb
      exact h2 s m m' a b hm hm' (Or.inl rfl) (by rwa [List.length_cons] at hN) ha hb

variable {Q : Type*}

/-- A property of blocks of times, counted from the end, that holds for the prepared states and is preserved by the
combination of adjacent blocks holds for the states that the smoother returns. Sequentially, the earlier block has length
one. -/
theorem smoother_blocks (rng : Prng K) (inputsOf : S → Inp) (dummy : Inp → Inp) (s : SmootherObj Inp K S Q)
    (filterStates : List S) (inputs : List Inp) (hlen : inputs.length + 1 = filterStates.length) (hpos : 1 ≤ inputs.length)
    (parallel : Bool) (key : Option K) (P : ℕ → ℕ → Q → Prop)
    (h0 : ∀ x u k, filterStates[inputs.length]? = some x → inputs[0]? = some u → P 0 1 (s.convert x (dummy u) k))
    (h1 : ∀ t x u k, filterStates[t]? = some x → inputs[t]? = some u →
      P (inputs.length - t) 1 (s.smootherPrepare x u k))
    (h2 : ∀ r m m' a b, 1 ≤ m → 1 ≤ m' → (parallel = true ∨ r = 0 ∧ m' = 1) → r + m + m' ≤ inputs.length + 1 → P r m a →
      P (r + m) m' b → P r (m + m') (s.smootherCombine b a)) :
    ∃ states, (smoother rng inputsOf (fun u => .ok (dummy u)) s filterStates (some inputs) parallel key).result = .ok states ∧
      states.length = filterStates.length ∧ ∀ t q, states[t]? = some q → P 0 (inputs.length - t + 1) q := by
  rw [smoother_core_eq rng inputsOf _ s filterStates inputs hlen]
  unfold smootherCore
  have hx : filterStates.getLast? = some (filterStates[inputs.length]'(by omega)) := by
    rw [List.getLast?_eq_getElem?, show filterStates.length - 1 = inputs.length by omega, List.getElem?_eq_getElem]
  have hu : inputs[0]? = some (inputs[0]'(by omega)) := List.getElem?_eq_getElem _
  rw [hx, hu]
  simp only
  obtain ⟨fi, hfi⟩ : ∃ fi, fi = s.convert (filterStates[inputs.length]'(by omega)) (dummy (inputs[0]'(by omega)))
    (keyAt rng key filterStates.length 0) := ⟨_, rfl⟩
  obtain ⟨es, hes⟩ : ∃ es, es = smootherElems rng s filterStates inputs key := ⟨_, rfl⟩
  have hesl : es.length = inputs.length := by rw [hes]; exact smootherElems_length rng s filterStates inputs key hlen
  rw [← hfi, ← hes]
  have hscan : (if parallel then associativeScanRev (fun current next => s.smootherCombine next current) (es ++ [fi])
      else backFold s.smootherCombine fi es) =
      (if parallel then associativeScan (fun current next => s.smootherCombine next current) (fi :: es.reverse)
        else runningFold (fun current next => s.smootherCombine next current) fi es.reverse).reverse := by
    cases parallel with
    | false =>
      simp only [Bool.false_eq_true, if_false]
      rw [runningFold_reverse]
    | true => simp [associativeScanRev]
  obtain ⟨sc, hsc⟩ : ∃ sc, sc = (if parallel then
      associativeScan (fun current next => s.smootherCombine next current) (fi :: es.reverse)
      else runningFold (fun current next => s.smootherCombine next current) fi es.reverse) := ⟨_, rfl⟩
  have hscl : sc.length = inputs.length + 1 := by
    rw [hsc]
    cases parallel with
    | false => simp [runningFold_length, hesl]
    | true => simp [associativeScan_length, hesl]
  rw [hscan, ← hsc]
  refine ⟨_, rfl, by rw [List.length_reverse, hscl, hlen], fun t q hq => ?_⟩
  have ht : t < inputs.length + 1 := by
    by_contra hc
    rw [List.getElem?_eq_none (by rw [List.length_reverse, hscl]; omega)] at hq
    cases hq
  rw [List.getElem?_reverse (by rw [hscl]; exact ht), hscl,
    show inputs.length + 1 - 1 - t = inputs.length - t by omega, hsc] at hq
  refine scan_blocks _ fi es.reverse parallel P ?_ ?_ _ q hq
  · intro r y hy
    cases r with
    | zero =>
      have : fi = y := by simpa using hy
      rw [← this, hfi]
      exact h0 _ _ _ (List.getElem?_eq_getElem _) hu
    | succ r =>
      rw [List.getElem?_cons_succ] at hy
      have hr : r < es.length := by
        by_contra hc
        rw [List.getElem?_eq_none (by rw [List.length_reverse]; omega)] at hy
        cases hy
      rw [List.getElem?_reverse hr, hesl] at hy
      have e1 : filterStates[inputs.length - 1 - r]? = some (filterStates[inputs.length - 1 - r]'(by omega)) :=
        List.getElem?_eq_getElem _
      have e2 : inputs[inputs.length - 1 - r]? = some (inputs[inputs.length - 1 - r]'(by omega)) :=
        List.getElem?_eq_getElem _
      rw [hes, smootherElems_get rng s filterStates inputs key hlen _ _ _ e1 e2, Option.some.injEq] at hy
      rw [← hy]
      have h3 := h1 _ _ _ (keyAt rng key filterStates.length (inputs.length - 1 - r + 1)) e1 e2
      rwa [show inputs.length - (inputs.length - 1 - r) = r + 1 by omega] at h3
  · intro r m m' a b hm hm' hp hN ha hb
    exact h2 r m m' a b hm hm' hp (by rw [List.length_reverse, hesl] at hN; exact hN) ha hb

end Cuthbert
