import Verif.Lemmas.Scan
import Verif.Model.Interface

namespace Cuthbert
open Spec

variable {Inp K S Q α β : Type*}

/-- Subkey number `t` out of `n`, or nothing if no key was given. -/
def keyAt (rng : Prng K) (key : Option K) (n t : Nat) : Option K :=
  key.bind fun k => (rng.split k n)[t]?

theorem prepareKeys_length (rng : Prng K) (key : Option K) (n : Nat) :
    (prepareKeys rng key n).length = n := by
  cases key <;> simp [prepareKeys, rng.length_split]

theorem prepareKeys_get (rng : Prng K) (key : Option K) (n t : Nat) (h : t < n) :
    (prepareKeys rng key n)[t]? = some (keyAt rng key n t) := by
  cases key with
  | none => simp [prepareKeys, keyAt, h]
  | some k =>
    have : t < (rng.split k n).length := by rw [rng.length_split]; exact h
    simp [prepareKeys, keyAt, List.getElem?_eq_getElem this]

theorem laxScan_eq_runningFold (g : S → α → S) : ∀ (s : S) (xs : List α),
    s :: (laxScan (fun s x => (g s x, g s x)) s xs).2 =
      s :: (laxScan (fun s x => (g s x, g s x)) s xs).2 ∧
    s :: (laxScan (fun s x => (g s x, g s x)) s xs).2 = List.scanl g s xs
  | s, [] => by simp [laxScan]
  | s, x :: xs => by
    refine ⟨rfl, ?_⟩
    have := (laxScan_eq_runningFold g (g s x) xs).2
    simp only [laxScan, List.scanl_cons]
    rw [← this]

theorem scanl_eq_runningFold (op : S → S → S) (p : α → S) : ∀ (s : S) (xs : List α),
    List.scanl (fun s x => op s (p x)) s xs = runningFold op s (xs.map p)
  | s, [] => by simp [runningFold]
  | s, x :: xs => by
    simp only [List.scanl_cons, List.map_cons, runningFold]
    rw [scanl_eq_runningFold op p (op s (p x)) xs]

/-- The list of states to be combined: initial state, then the prepared ones. -/
def filterElems (rng : Prng K) (f : FilterObj Inp K S) (inputs : List Inp)
    (key : Option K) : List S :=
  List.zipWith f.filterPrepare inputs (prepareKeys rng key (inputs.length + 1)).tail

theorem filter_sequential_eq (rng : Prng K) (f : FilterObj Inp K S) (inp0 : Inp)
    (inputs : List Inp) (key : Option K) :
    (filter rng f (inp0 :: inputs) false key).result =
      .ok (runningFold f.filterCombine
        (f.initPrepare inp0 (keyAt rng key (inputs.length + 1) 0))
        (filterElems rng f inputs key)) := by
  unfold filter filterElems
  simp only [List.length_cons, List.getElem?_cons_zero]
  rw [prepareKeys_get _ _ _ _ (Nat.succ_pos _)]
  simp only [Bool.false_eq_true, if_false, List.tail_cons, Except.ok.injEq]
  rw [(laxScan_eq_runningFold (fun s (x : Inp × Option K) =>
    f.filterCombine s (f.filterPrepare x.1 x.2)) _ _).2,
    scanl_eq_runningFold f.filterCombine (fun x : Inp × Option K => f.filterPrepare x.1 x.2)]
  congr 1
  simp [List.zip, List.map_zipWith]

theorem filter_parallel_eq (rng : Prng K) (f : FilterObj Inp K S) (inp0 : Inp)
    (inputs : List Inp) (key : Option K) :
    (filter rng f (inp0 :: inputs) true key).result =
      .ok (associativeScan f.filterCombine
        (f.initPrepare inp0 (keyAt rng key (inputs.length + 1) 0) ::
        (filterElems rng f inputs key))) := by
  unfold filter filterElems
  simp only [List.length_cons, List.getElem?_cons_zero]
  rw [prepareKeys_get _ _ _ _ (Nat.succ_pos _)]
  simp only [if_true, List.tail_cons]

theorem filterElems_get (rng : Prng K) (f : FilterObj Inp K S)
    (inputs : List Inp) (key : Option K) (t : Nat) :
    (filterElems rng f inputs key)[t]? =
      inputs[t]?.map fun inp => f.filterPrepare inp (keyAt rng key (inputs.length + 1) (t + 1)) := by
  unfold filterElems
  rw [List.getElem?_zipWith]
  rcases Nat.lt_or_ge t inputs.length with h | h
  · rw [List.getElem?_eq_getElem h, List.getElem?_tail, prepareKeys_get _ _ _ _ (by omega)]
    rfl
  · rw [List.getElem?_eq_none h]; rfl

theorem filterElems_length (rng : Prng K) (f : FilterObj Inp K S)
    (inputs : List Inp) (key : Option K) :
    (filterElems rng f inputs key).length = inputs.length := by
  unfold filterElems
  simp [prepareKeys_length]

theorem runningFold_get_zero (op : α → α → α) (a : α) (xs : List α) :
    (runningFold op a xs)[0]? = some a := by
  cases xs <;> simp [runningFold]

theorem runningFold_get_succ (op : α → α → α) : ∀ (a : α) (xs : List α) (t : Nat) (x s : α),
    xs[t]? = some x → (runningFold op a xs)[t]? = some s →
    (runningFold op a xs)[t + 1]? = some (op s x)
  | a, [], t, x, s, h, _ => by simp at h
  | a, y :: xs, 0, x, s, h, h' => by
    simp only [runningFold, List.getElem?_cons_zero, Option.some.injEq] at h h'
    subst h; subst h'
    simp only [runningFold, List.getElem?_cons_succ]
    exact runningFold_get_zero _ _ _
  | a, y :: xs, t + 1, x, s, h, h' => by
    simp only [runningFold, List.getElem?_cons_succ] at h h' ⊢
    exact runningFold_get_succ op (op a y) xs t x s h h'

/-! ### Smoother -/

/-- `states ++ [final]` computed by the backward recursion over prepared elements. -/
def backFold (op : Q → Q → Q) (final : Q) : List Q → List Q
  | [] => [final]
  | p :: ps =>
    let rest := backFold op final ps
    match rest with
    | [] => []
    | r :: rs => op p r :: r :: rs

theorem backFold_ne_nil (op : Q → Q → Q) (final : Q) : ∀ ps, backFold op final ps ≠ []
  | [] => by simp [backFold]
  | p :: ps => by
    have := backFold_ne_nil op final ps
    unfold backFold
    cases h : backFold op final ps with
    | nil => exact absurd h this
    | cons r rs => simp

theorem backFold_cons (op : Q → Q → Q) (final p : Q) (ps : List Q) :
    ∃ r, (backFold op final ps)[0]? = some r ∧
      backFold op final (p :: ps) = op p r :: backFold op final ps := by
  have := backFold_ne_nil op final ps
  cases h : backFold op final ps with
  | nil => exact absurd h this
  | cons r rs =>
    refine ⟨r, by simp, ?_⟩
    rw [backFold, h]

theorem backFold_length (op : Q → Q → Q) (final : Q) : ∀ ps,
    (backFold op final ps).length = ps.length + 1
  | [] => rfl
  | p :: ps => by
    obtain ⟨r, -, h⟩ := backFold_cons op final p ps
    rw [h, List.length_cons, backFold_length op final ps, List.length_cons]

theorem backFold_getLast (op : Q → Q → Q) (final : Q) : ∀ ps,
    (backFold op final ps).getLast? = some final
  | [] => rfl
  | p :: ps => by
    obtain ⟨r, hr, h⟩ := backFold_cons op final p ps
    rw [h, List.getLast?_cons, backFold_getLast op final ps]
    rfl

theorem backFold_step (op : Q → Q → Q) (final : Q) : ∀ (ps : List Q) (t : Nat) (p s : Q),
    ps[t]? = some p → (backFold op final ps)[t + 1]? = some s →
    (backFold op final ps)[t]? = some (op p s)
  | [], t, p, s, h, _ => by simp at h
  | q :: ps, 0, p, s, h, h' => by
    obtain ⟨r, hr, e⟩ := backFold_cons op final q ps
    rw [e] at h' ⊢
    simp only [List.getElem?_cons_zero, Option.some.injEq, List.getElem?_cons_succ] at h h' ⊢
    rw [hr, Option.some.injEq] at h'
    rw [h, h']
  | q :: ps, t + 1, p, s, h, h' => by
    obtain ⟨r, hr, e⟩ := backFold_cons op final q ps
    rw [e] at h' ⊢
    simp only [List.getElem?_cons_succ] at h h' ⊢
    exact backFold_step op final ps t p s h h'

theorem laxScanRev_eq (op : Q → Q → Q) (p : α → Q) (final : Q) : ∀ xs : List α,
    (laxScanRev (fun n x => (op (p x) n, op (p x) n)) final xs).2 ++ [final] =
      backFold op final (xs.map p) ∧
    (backFold op final (xs.map p))[0]? =
      some (laxScanRev (fun n x => (op (p x) n, op (p x) n)) final xs).1
  | [] => by simp [laxScanRev, backFold]
  | x :: xs => by
    obtain ⟨h1, h2⟩ := laxScanRev_eq op p final xs
    obtain ⟨r, hr, e⟩ := backFold_cons op final (p x) (xs.map p)
    rw [h2, Option.some.injEq] at hr
    simp only [laxScanRev, List.map_cons, List.cons_append]
    rw [h1, e, hr]
    simp

theorem runningFold_concat (op : α → α → α) : ∀ (a : α) (xs : List α) (x l : α),
    (runningFold op a xs).getLast? = some l →
    runningFold op a (xs ++ [x]) = runningFold op a xs ++ [op l x]
  | a, [], x, l, h => by
    simp only [runningFold, List.getLast?_singleton, Option.some.injEq] at h
    subst h; simp [runningFold]
  | a, y :: xs, x, l, h => by
    have hne : runningFold op (op a y) xs ≠ [] := by
      intro e; have := runningFold_length op (op a y) xs; rw [e] at this; simp at this
    simp only [runningFold, List.cons_append] at h ⊢
    rw [runningFold_concat op (op a y) xs x l]
    obtain ⟨z, hz⟩ : ∃ z, (runningFold op (op a y) xs).getLast? = some z :=
      ⟨_, List.getLast?_eq_some_getLast hne⟩
    rw [List.getLast?_cons, hz] at h
    rw [hz]; exact h

theorem runningFold_reverse (op : Q → Q → Q) (final : Q) : ∀ ps : List Q,
    (runningFold (fun c n => op n c) final ps.reverse).reverse = backFold op final ps
  | [] => by simp [runningFold, backFold]
  | p :: ps => by
    have ih := runningFold_reverse op final ps
    obtain ⟨r, hr, e⟩ := backFold_cons op final p ps
    have hlast : (runningFold (fun c n => op n c) final ps.reverse).getLast? = some r := by
      rw [← ih] at hr
      rw [← List.head?_eq_getElem?, List.head?_reverse] at hr
      exact hr
    rw [List.reverse_cons, runningFold_concat _ _ _ _ _ hlast, List.reverse_append, ih, e]
    rfl

/-- The prepared elements of the smoother. -/
def smootherElems (rng : Prng K) (s : SmootherObj Inp K S Q) (filterStates : List S)
    (inputs : List Inp) (key : Option K) : List Q :=
  List.zipWith (fun (fi : S × Inp) k => s.smootherPrepare fi.1 fi.2 k)
    (List.zip filterStates.dropLast inputs) (prepareKeys rng key filterStates.length).tail

theorem smootherElems_length (rng : Prng K) (s : SmootherObj Inp K S Q) (filterStates : List S)
    (inputs : List Inp) (key : Option K) (h : inputs.length + 1 = filterStates.length) :
    (smootherElems rng s filterStates inputs key).length = inputs.length := by
  unfold smootherElems
  simp [prepareKeys_length]; omega

theorem smootherElems_get (rng : Prng K) (s : SmootherObj Inp K S Q) (filterStates : List S)
    (inputs : List Inp) (key : Option K) (h : inputs.length + 1 = filterStates.length)
    (t : Nat) (x : S) (u : Inp) (hx : filterStates[t]? = some x) (hu : inputs[t]? = some u) :
    (smootherElems rng s filterStates inputs key)[t]? =
      some (s.smootherPrepare x u (keyAt rng key filterStates.length (t + 1))) := by
  have ht : t < inputs.length := by
    rcases Nat.lt_or_ge t inputs.length with h | h
    · exact h
    · rw [List.getElem?_eq_none h] at hu; cases hu
  have hd : filterStates.dropLast[t]? = some x := by
    rw [List.getElem?_dropLast, if_pos (by omega)]; exact hx
  unfold smootherElems
  rw [List.getElem?_zipWith, List.getElem?_tail, prepareKeys_get _ _ _ _ (by omega)]
  have : (List.zip filterStates.dropLast inputs)[t]? = some (x, u) := by
    simp only [List.zip]
    rw [List.getElem?_zipWith, hd, hu]
  rw [this]

section
variable (rng : Prng K) (inputsOf : S → Inp) (dummy : Inp → Except Err Inp)
  (s : SmootherObj Inp K S Q)

/-- The result of `smoother` once the inputs have been trimmed to one per transition. -/
def smootherCore (filterStates : List S) (inputs : List Inp)
    (parallel : Bool) (key : Option K) : Except Err (List Q) :=
  match filterStates.getLast?, inputs[0]? with
  | some x, some u =>
    match dummy u with
    | .error e => .error e
    | .ok d =>
      let final := s.convert x d (keyAt rng key filterStates.length 0)
      let elems := smootherElems rng s filterStates inputs key
      .ok (if parallel then
        associativeScanRev (fun current next => s.smootherCombine next current) (elems ++ [final])
      else backFold s.smootherCombine final elems)
  | _, _ => .error .indexError

theorem smoother_core_eq (filterStates : List S) (inputs : List Inp)
    (h : inputs.length + 1 = filterStates.length) (parallel : Bool) (key : Option K) :
    (smoother rng inputsOf dummy s filterStates (some inputs) parallel key).result =
      smootherCore rng dummy s filterStates inputs parallel key := by
  unfold smoother smootherCore
  simp only [Option.getD_some]
  rw [if_neg (by omega), if_neg (by omega)]
  simp only
  rw [prepareKeys_get _ _ _ _ (by omega)]
  have hne : filterStates ≠ [] := by intro e; subst e; simp at h
  rw [List.getLast?_eq_some_getLast hne]
  cases inputs with
  | nil => simp
  | cons u us =>
    simp only [List.getElem?_cons_zero]
    cases dummy u with
    | error e => rfl
    | ok d =>
      cases parallel with
      | true => simp only [if_true]; rfl
      | false =>
        simp only [Bool.false_eq_true, if_false, Except.ok.injEq]
        rw [(laxScanRev_eq s.smootherCombine
          (fun x : (S × Inp) × Option K => s.smootherPrepare x.1.1 x.1.2 x.2) _ _).1]
        congr 1
        unfold smootherElems
        simp only [List.zip, List.map_zipWith]

theorem smoother_trim_eq (filterStates : List S) (u : Inp) (inputs : List Inp)
    (h : inputs.length + 1 = filterStates.length) (parallel : Bool) (key : Option K) :
    smoother rng inputsOf dummy s filterStates (some (u :: inputs)) parallel key =
      smoother rng inputsOf dummy s filterStates (some inputs) parallel key := by
  unfold smoother
  simp only [Option.getD_some, List.length_cons, List.tail_cons]
  rw [if_pos (by omega), if_neg (by omega), if_neg (by omega)]

theorem smoother_none_eq (filterStates : List S) (parallel : Bool) (key : Option K) :
    smoother rng inputsOf dummy s filterStates none parallel key =
      smoother rng inputsOf dummy s filterStates (some (filterStates.map inputsOf)) parallel key :=
  rfl

end

end Cuthbert
