import Verif.Spec.Parallel
import Verif.Lemmas.SMCRun
import Verif.Lemmas.SMCResamplers
import Verif.Props.MarginalFilter
import Verif.Props.Interface
import Verif.Model.Linearize
import Verif.Model.Discrete
import Verif.Model.Kalman

/-!
# Parallel mode for filters that are not associative (C74)
-/

namespace Cuthbert

variable {α : Type*}

theorem visited_odd (i : ℕ) : visited (2 * i + 1) = 1 :: (visited i).map fun j => 2 * j + 1 := by
  rw [visited, if_pos (by omega), show 2 * i / 2 = i by omega]

theorem visited_even (i : ℕ) : visited (2 * i + 2) = visited (2 * i + 1) ++ [2 * i + 2] := by
  conv_lhs => rw [visited]
  rw [if_neg (by omega)]

/-- Induction along the scan. -/
theorem scanInduction {p : ℕ → Prop} (h0 : p 0) (h1 : ∀ i, p i → p (2 * i + 1))
    (h2 : ∀ i, p (2 * i + 1) → p (2 * i + 2)) (t : ℕ) : p t := by
  induction t using Nat.strongRecOn with
  | _ t ih =>
    rcases Nat.eq_zero_or_pos t with rfl | hpos
    · exact h0
    · rcases Nat.mod_two_eq_zero_or_one t with h | h
      · obtain ⟨i, rfl⟩ : ∃ i, t = 2 * i + 2 := ⟨t / 2 - 1, by omega⟩
        exact h2 i (ih _ (by omega))
      · obtain ⟨i, rfl⟩ : ∃ i, t = 2 * i + 1 := ⟨t / 2, by omega⟩
        exact h1 i (ih _ (by omega))

/-- The visited times are increasing, between `1` and `t`, and end with `t`. -/
theorem visited_sorted (t : ℕ) : (visited t).Pairwise (· < ·) ∧ (∀ j ∈ visited t, 1 ≤ j ∧ j ≤ t) ∧
    (0 < t → t ∈ visited t) := by
  induction t using scanInduction with
  | h0 => simp [visited]
  | h1 i ih =>
    obtain ⟨ih1, ih2, ih3⟩ := ih
    rw [visited_odd]
    refine ⟨List.pairwise_cons.2 ⟨fun j hj => ?_, ?_⟩, fun j hj => ?_, fun _ => ?_⟩
    · obtain ⟨j', hj', rfl⟩ := List.mem_map.1 hj
      have := ih2 j' hj'; omega
    · rw [List.pairwise_map]
      exact ih1.imp fun h => by omega
    · rcases List.mem_cons.1 hj with rfl | hj
      · omega
      · obtain ⟨j', hj', rfl⟩ := List.mem_map.1 hj
        have := ih2 j' hj'; omega
    · rcases Nat.eq_zero_or_pos i with rfl | hi
      · simp
      · exact List.mem_cons_of_mem _ (List.mem_map.2 ⟨i, ih3 hi, rfl⟩)
  | h2 i ih =>
    obtain ⟨ih1, ih2, ih3⟩ := ih
    rw [visited_even]
    refine ⟨List.pairwise_append.2 ⟨ih1, by simp, fun a ha b hb => ?_⟩, fun j hj => ?_, by simp⟩
    · have := ih2 a ha
      simp at hb; omega
    · rcases List.mem_append.1 hj with h | h
      · have := ih2 j h; omega
      · simp at h; omega

/-- At most `2 log₂(t + 1)` steps are visited. -/
theorem visited_length (t : ℕ) : (visited t).length ≤ 2 * Nat.log 2 (t + 1) ∧ (t % 2 = 1 →
    (visited t).length + 1 ≤ 2 * Nat.log 2 (t + 1)) := by
  have hlog : ∀ i, Nat.log 2 (2 * i + 2) = Nat.log 2 (i + 1) + 1 := fun i => by
    rw [show 2 * i + 2 = (i + 1) * 2 by ring, Nat.log_mul_base (by norm_num) (by omega)]
  induction t using scanInduction with
  | h0 => simp [visited]
  | h1 i ih =>
    rw [visited_odd, hlog]
    simp only [List.length_cons, List.length_map]
    omega
  | h2 i ih =>
    have := Nat.log_mono_right (b := 2) (show 2 * i + 1 + 1 ≤ 2 * i + 2 + 1 by omega)
    have h := ih.2 (by omega)
    rw [visited_even, List.length_append]
    simp only [List.length_singleton]
    constructor
    · omega
    · omega

/-- From time 3 on some step is skipped. -/
theorem visited_length_lt {t : ℕ} (ht : 3 ≤ t) : (visited t).length < t := by
  obtain ⟨h1, h2, -⟩ := visited_sorted t
  have hnd : (visited t).Nodup := h1.imp fun h => h.ne
  have key : (visited t).length ≤ ((Finset.Icc 1 t).erase 2).card ∨ t % 2 = 0 := by
    rcases Nat.mod_two_eq_zero_or_one t with h | h
    · exact Or.inr h
    · left
      obtain ⟨i, rfl⟩ : ∃ i, t = 2 * i + 1 := ⟨t / 2, by omega⟩
      rw [← List.toFinset_card_of_nodup hnd]
      refine Finset.card_le_card fun j hj => ?_
      rw [List.mem_toFinset] at hj
      have := h2 j hj
      rw [visited_odd] at hj
      refine Finset.mem_erase.2 ⟨?_, Finset.mem_Icc.2 this⟩
      rintro rfl
      rcases List.mem_cons.1 hj with h | h
      · omega
      · obtain ⟨j', -, h⟩ := List.mem_map.1 h
        omega
  rcases key with h | h
  · rw [Finset.card_erase_of_mem (by simp; omega), Nat.card_Icc] at h
    omega
  · obtain ⟨i, rfl⟩ : ∃ i, t = 2 * i + 2 := ⟨t / 2 - 1, by omega⟩
    have h3 : (visited (2 * i + 2)).length ≤ ((Finset.Icc 1 (2 * i + 2)).erase 2).card := by
      rw [← List.toFinset_card_of_nodup hnd]
      refine Finset.card_le_card fun j hj => ?_
      rw [List.mem_toFinset] at hj
      have := h2 j hj
      rw [visited_even, visited_odd] at hj
      refine Finset.mem_erase.2 ⟨?_, Finset.mem_Icc.2 this⟩
      rintro rfl
      rcases List.mem_append.1 hj with h | h
      · rcases List.mem_cons.1 h with h | h
        · omega
        · obtain ⟨j', -, h⟩ := List.mem_map.1 h
          omega
      · simp at h; omega
    rw [Finset.card_erase_of_mem (by simp), Nat.card_Icc] at h3
    omega

/-! ### The scan -/

theorem getD_of_lt (xs : List α) (d : α) {j : ℕ} (h : j < xs.length) : xs.getD j d = xs[j] := by
  rw [List.getD_eq_getElem?_getD, List.getElem?_eq_getElem h, Option.getD_some]

theorem interleave_get : ∀ (i : ℕ) (a b : List α), b.length ≤ a.length → a.length ≤ b.length + 1 →
    (interleave a b)[2 * i]? = a[i]? ∧ (interleave a b)[2 * i + 1]? = b[i]?
  | i, [], [], _, _ => by simp [interleave_nil_left]
  | i, [], _ :: _, h, _ => by simp at h
  | i, [x], [], _, _ => by
    rw [interleave_cons_left, interleave_nil_left]
    cases i <;> simp [Nat.mul_add]
  | i, _ :: _ :: _, [], _, h => by simp at h
  | 0, x :: a, y :: b, _, _ => by simp [interleave_cons_left]
  | i + 1, x :: a, y :: b, h1, h2 => by
    rw [interleave_cons_left, interleave_cons_left, show 2 * (i + 1) = 2 * i + 1 + 1 by ring]
    simp only [List.getElem?_cons_succ]
    exact interleave_get i a b (by simpa using h1) (by simpa using h2)

theorem everyOther_get : ∀ (i : ℕ) (xs : List α), (everyOther xs)[i]? = xs[2 * i]?
  | _, [] => by simp [everyOther]
  | 0, [x] => by simp [everyOther]
  | i + 1, [x] => by simp [everyOther, Nat.mul_add]
  | 0, x :: y :: xs => by simp [everyOther]
  | i + 1, x :: y :: xs => by
    rw [everyOther, show 2 * (i + 1) = 2 * i + 1 + 1 by ring]
    simp only [List.getElem?_cons_succ]
    exact everyOther_get i xs

theorem pairUp_get (op : α → α → α) : ∀ (i : ℕ) (xs : List α) (h : 2 * i + 1 < xs.length),
    (pairUp op xs)[i]? = some (op xs[2 * i] xs[2 * i + 1])
  | _, [], h => by simp at h
  | _, [x], h => by simp at h
  | 0, x :: y :: xs, _ => by simp [pairUp]
  | i + 1, x :: y :: xs, h => by
    rw [pairUp, List.getElem?_cons_succ, pairUp_get op i xs (by simp only [List.length_cons] at h; omega)]
    simp [Nat.mul_add]

theorem scan_get_odd (op : α → α → α) (xs : List α) (h2 : 2 ≤ xs.length) (i : ℕ) :
    (associativeScan op xs)[2 * i + 1]? = (associativeScan op (pairUp op xs))[i]? := by
  match xs, h2 with
  | x :: y :: xs, _ =>
    rw [associativeScan_cons_cons, List.getElem?_cons_succ]
    refine (interleave_get i _ _ ?_ ?_).1
    · split
      · simp only [List.length_zipWith, List.length_dropLast]; omega
      · simp only [List.length_zipWith]; omega
    · split <;> simp only [List.length_zipWith, List.length_dropLast, associativeScan_length, pairUp_length,
        List.length_cons, everyOther_length] <;> omega

theorem scan_get_even (op : α → α → α) (xs : List α) (i : ℕ) (h : 2 * i + 2 < xs.length) (y : α)
    (hy : (associativeScan op xs)[2 * i + 1]? = some y) :
    (associativeScan op xs)[2 * i + 2]? = some (op y xs[2 * i + 2]) := by
  rw [scan_get_odd op xs (by omega)] at hy
  match xs, h with
  | x :: y' :: xs, h =>
    have hl : (associativeScan op (pairUp op (x :: y' :: xs))).length = (xs.length + 2) / 2 := by
      rw [associativeScan_length, pairUp_length]; rfl
    have he : (everyOther xs)[i]? = some (xs[2 * i]'(by simpa using h)) := by
      rw [everyOther_get, List.getElem?_eq_getElem]
    rw [associativeScan_cons_cons, List.getElem?_cons_succ, (interleave_get i _ _ ?_ ?_).2]
    · simp only [List.length_cons] at h
      split
      · rw [zipWith_dropLast_right _ _ _ (by rw [hl, everyOther_length]; omega), List.getElem?_zipWith, hy, he]
        rfl
      · rw [List.getElem?_zipWith, hy, he]
        rfl
    · split
      · simp only [List.length_zipWith, List.length_dropLast]; omega
      · simp only [List.length_zipWith]; omega
    · split <;> simp only [List.length_zipWith, List.length_dropLast, hl, everyOther_length] <;> omega

/-- If the right argument of `op` is only read through something that `op` takes over from its right
argument, the scan applies the visited elements one after the other. -/
theorem associativeScan_visited (op : α → α → α) (P : α → Prop) (hcl : ∀ a b, P a → P b → P (op a b))
    (hop : ∀ a b c, P a → P b → P c → op a (op b c) = op a c) (t : ℕ) : ∀ (xs : List α), (∀ x ∈ xs, P x) →
    ∀ (ht : t < xs.length) (d : α), P d → (associativeScan op xs)[t]? =
      some ((visited t).foldl (fun a j => op a (xs.getD j d)) xs[0]) := by
  induction t using scanInduction with
  | h0 =>
    intro xs _ ht d _
    match xs, ht with
    | [x], _ => simp [associativeScan_singleton, visited]
    | x :: y :: xs, _ => simp [associativeScan_cons_cons, visited]
  | h1 i ih =>
    intro xs hP ht d hd
    have hg : ∀ j, P (xs.getD j d) := fun j => by
      rcases lt_or_ge j xs.length with h | h
      · rw [getD_of_lt _ _ h]; exact hP _ (List.getElem_mem h)
      · rw [List.getD_eq_getElem?_getD, List.getElem?_eq_none h]; exact hd
    have hl : i < (pairUp op xs).length := by rw [pairUp_length]; omega
    rw [scan_get_odd op xs (by omega), ih (pairUp op xs) (pairUp_mem op P hcl xs hP) hl d hd, visited_odd,
      List.foldl_cons, List.foldl_map]
    have h0 : (pairUp op xs)[0]'(by omega) = op xs[0] (xs.getD 1 d) := by
      have := pairUp_get op 0 xs (by omega)
      rw [List.getElem?_eq_getElem (by omega)] at this
      rw [getD_of_lt _ _ (show 1 < xs.length by omega)]
      simpa using this
    rw [h0]
    have hfold : ∀ (l : List ℕ) (a : α), P a → (∀ j ∈ l, j ≤ i) →
        l.foldl (fun a j => op a ((pairUp op xs).getD j d)) a =
          l.foldl (fun a j => op a (xs.getD (2 * j + 1) d)) a := by
      intro l
      induction l with
      | nil => intro a _ _; rfl
      | cons j l ihl =>
        intro a ha hj
        have hj0 : j ≤ i := hj j (by simp)
        have h1 : op a ((pairUp op xs).getD j d) = op a (xs.getD (2 * j + 1) d) := by
          have := pairUp_get op j xs (by omega)
          rw [List.getD_eq_getElem?_getD, this, Option.getD_some, getD_of_lt _ _ (by omega)]
          exact hop _ _ _ ha (hP _ (List.getElem_mem _)) (hP _ (List.getElem_mem _))
        rw [List.foldl_cons, List.foldl_cons, h1]
        exact ihl _ (hcl _ _ ha (hg _)) fun j' h => hj j' (by simp [h])
    exact congrArg some (hfold _ _ (hcl _ _ (hP _ (List.getElem_mem _)) (hg 1))
      fun j hj => ((visited_sorted i).2.1 j hj).2)
  | h2 i ih =>
    intro xs hP ht d hd
    rw [scan_get_even op xs i ht _ (ih xs hP (by omega) d hd), visited_even, List.foldl_append]
    simp only [List.foldl_cons, List.foldl_nil]
    rw [getD_of_lt _ _ ht]

/-! ### Filters -/

section Filters

variable {Inp K S : Type*}

/-- The filter object run online: from the initial state through the steps at the times `ts`, each with its
own input and key. -/
def onlineThrough (rng : Prng K) (f : FilterObj Inp K S) (u₀ : Inp) (us : List Inp) (key : Option K)
    (ts : List ℕ) : S :=
  ts.foldl (fun s j => f.filterCombine s
      (f.filterPrepare ((u₀ :: us).getD j u₀) (keyAt rng key (us.length + 1) j)))
    (f.initPrepare u₀ (keyAt rng key (us.length + 1) 0))

/-- **C74** (general form). If `filter_combine` reads its second argument only through what it hands on
unchanged, the parallel filter at time `t` returns what the online filter returns after the steps
`visited t` only. -/
theorem filter_parallel_visits (rng : Prng K) (f : FilterObj Inp K S) (u₀ : Inp) (us : List Inp)
    (key : Option K) (P : S → Prop) (hinit : P (f.initPrepare u₀ (keyAt rng key (us.length + 1) 0)))
    (hprep : ∀ t, t ≤ us.length → ∀ u ∈ u₀ :: us, P (f.filterPrepare u (keyAt rng key (us.length + 1) t)))
    (hcl : ∀ a b, P a → P b → P (f.filterCombine a b))
    (hop : ∀ a b c, P a → P b → P c → f.filterCombine a (f.filterCombine b c) = f.filterCombine a c) :
    ∃ states, (filter rng f (u₀ :: us) true key).result = .ok states ∧ states.length = us.length + 1 ∧
      ∀ t ≤ us.length, states[t]? = some (onlineThrough rng f u₀ us key (visited t)) := by
  rw [filter_parallel_eq]
  have hlen : (filterElems rng f us key).length = us.length := filterElems_length rng f us key
  have hmem : ∀ x ∈ f.initPrepare u₀ (keyAt rng key (us.length + 1) 0) :: filterElems rng f us key, P x := by
    intro x hx
    rcases List.mem_cons.1 hx with rfl | hx
    · exact hinit
    · obtain ⟨t, ht⟩ := List.mem_iff_getElem?.1 hx
      rw [filterElems_get] at ht
      obtain ⟨u, hu, rfl⟩ := Option.map_eq_some_iff.1 ht
      have := List.getElem?_eq_some_iff.1 hu
      exact hprep _ (by have := this.1; omega) u (List.mem_cons_of_mem _ (List.mem_of_getElem? hu))
  refine ⟨_, rfl, by rw [associativeScan_length, List.length_cons, hlen], fun t ht => ?_⟩
  rw [associativeScan_visited f.filterCombine P hcl hop t _ hmem (by rw [List.length_cons, hlen]; omega)
    (f.initPrepare u₀ (keyAt rng key (us.length + 1) 0)) hinit]
  congr 1
  simp only [List.getElem_cons_zero, onlineThrough]
  refine List.foldl_ext _ _ _ fun a j hj => ?_
  have hj' := (visited_sorted t).2.1 j hj
  obtain ⟨j, rfl⟩ : ∃ i, j = i + 1 := ⟨j - 1, by omega⟩
  have hu : us[j]? = some (us[j]'(by omega)) := List.getElem?_eq_getElem (by omega)
  simp only [List.getD_eq_getElem?_getD, List.getElem?_cons_succ, filterElems_get, hu, Option.map_some,
    Option.getD_some]

/-- Up to three inputs the two modes always agree. -/
theorem filter_parallel_short (rng : Prng K) (f : FilterObj Inp K S) (inputs : List Inp)
    (h : inputs.length ≤ 3) (key : Option K) :
    (filter rng f inputs true key).result = (filter rng f inputs false key).result := by
  match inputs, h with
  | [], _ => simp [filter]
  | u :: us, h =>
    rw [filter_parallel_eq, filter_sequential_eq]
    have hlen : (filterElems rng f us key).length ≤ 2 := by
      rw [filterElems_length]; simp only [List.length_cons] at h; omega
    match filterElems rng f us key, hlen with
    | [], _ => simp [associativeScan_singleton, Spec.runningFold]
    | [x], _ => simp [associativeScan_cons_cons, associativeScan_singleton, Spec.runningFold, pairUp, everyOther,
        interleave_cons_left, interleave_nil_left]
    | [x, y], _ => simp [associativeScan_cons_cons, associativeScan_singleton, Spec.runningFold, pairUp, everyOther,
        interleave_cons_left, interleave_nil_left]

end Filters

/-! ### The methods of the library -/

section Methods
open Kalman SMC Resampling

variable {nx ny : ℕ}

/-- **C08/C74.** Which objects warn in parallel mode: never the Kalman and the discrete filters and the
smoothers of Gaussian and discrete states; the moments and Taylor filters exactly if built with
`associative=False`; always the two particle filters and the particle smoother. -/
theorem parallel_warnings {K Inp X : Type} (rng : Prng K) (inputs : List Inp) (key : Option K) :
    (∀ (qr : QR) (cb : Callbacks nx ny Inp), (filter rng (Kalman.buildFilter qr cb) inputs true key).warned = false) ∧
    (∀ {n : ℕ} (i : Inp → Fin (n + 1) → Fl) (tr : Inp → Fin (n + 1) → Fin (n + 1) → Fl) (o : Inp → Fin (n + 1) → Fl),
      (filter rng (Discrete.buildFilter i tr o) inputs true key).warned = false) ∧
    (∀ (qr : QR) (D : Linearize.Dummies nx) (cb : Linearize.MCallbacks nx ny Inp) (a : Bool),
      (filter rng (Linearize.buildMomentsFilter qr D cb a) inputs true key).warned = !a) ∧
    (∀ (qr : QR) (svd : SVD) (D : Linearize.Dummies nx) (cb : Linearize.TCallbacks nx ny Inp) (a : Bool),
      (filter rng (Linearize.buildTaylorFilter qr svd D cb a) inputs true key).warned = !a) ∧
    (∀ (mdl : FKModel K X Inp) (dummy : X) (N : ℕ) (R : Resampler K N X),
      (filter rng (particleFilter rng mdl dummy N R) inputs true key).warned = true ∧
      (filter rng (marginalParticleFilter rng mdl dummy N R) inputs true key).warned = true) := by
  have h : ∀ {S : Type} (f : FilterObj Inp K S), (filter rng f inputs true key).warned = !f.associative := by
    intro S f
    have := (filter_flag_only_warns rng f f.associative inputs true key).2
    cases hf : f.associative <;> simp_all
  refine ⟨fun _ _ => h _, fun _ _ _ => h _, fun _ _ _ a => ?_, fun _ _ _ _ a => ?_, fun _ _ _ _ => ⟨h _, h _⟩⟩
  · rw [h]; cases a <;> rfl
  · rw [h]; cases a <;> rfl

/-- The same for smoothers. -/
theorem parallel_warnings_smoother {K Inp X : Type} (rng : Prng K) (dm : Inp → Except Err Inp)
    (ins : Option (List Inp)) (key : Option K) :
    (∀ (qr : QR) dyn (opts : SmootherOpts nx Inp) fs inputsOf,
      (smoother rng inputsOf dm (Kalman.buildSmoother qr dyn opts) fs ins true key).warned = false) ∧
    (∀ {n : ℕ} tr (d : Inp → Inp) (fs : List (Discrete.FilterState n Inp)) inputsOf,
      (smoother rng inputsOf dm (Discrete.buildSmoother d tr) fs ins true key).warned = false) ∧
    (∀ (qr : QR) dyn (opts : SmootherOpts nx Inp) fs inputsOf,
      (smoother rng inputsOf dm (Linearize.buildMomentsSmoother qr dyn opts) fs ins true key).warned = false) ∧
    (∀ (qr : QR) (svd : SVD) r b dyn (opts : SmootherOpts nx Inp) fs inputsOf,
      (smoother rng inputsOf dm (Linearize.buildTaylorSmoother qr svd r b dyn opts) fs ins true key).warned = false) ∧
    (∀ {N : ℕ} (lp : X → X → Inp → Fl) (B : BackwardSampler K X N) (R : Resampler K N X) (n : ℕ) fs inputsOf,
      (smoother rng inputsOf dm (particleSmoother rng dm lp B R n) fs ins true key).warned = true) := by
  have h : ∀ {S Q : Type} (f : SmootherObj Inp K S Q) (fs : List S) inputsOf,
      (smoother rng inputsOf dm f fs ins true key).warned = !f.associative := by
    intro S Q f fs inputsOf
    have := (smoother_flag_only_warns rng inputsOf dm f f.associative fs ins true key).2
    cases hf : f.associative <;> simp_all
  exact ⟨fun _ _ _ _ _ => h _ _ _, fun _ _ _ _ => h _ _ _, fun _ _ _ _ _ => h _ _ _,
    fun _ _ _ _ _ _ _ _ => h _ _ _, fun _ _ _ _ _ _ => h _ _ _⟩

/-- **C74.** The non-associative moments filter in parallel mode: its state at time `t` is the last state of
the sequential filter on the inputs at the times `visited t`. -/
theorem moments_parallel_skips {K Inp : Type*} (rng : Prng K) (qr : QR) (D : Linearize.Dummies nx)
    (cb : Linearize.MCallbacks nx ny Inp) (u₀ : Inp) (us : List Inp) (key : Option K) :
    ∃ states, (filter rng (Linearize.buildMomentsFilter qr D cb false) (u₀ :: us) true key).result = .ok states ∧
      ∀ t ≤ us.length, states[t]? = some (onlineThrough rng (Linearize.buildMomentsFilter qr D cb false) u₀ us key
        (visited t)) := by
  have hin : ∀ b c : Linearize.LState nx Inp,
      (Linearize.mCombineNonAssoc qr D cb b c).modelInputs = c.modelInputs := fun b c => by
    simp only [Linearize.mCombineNonAssoc, Linearize.updateState]
    split <;> rfl
  obtain ⟨states, h1, -, h2⟩ := filter_parallel_visits rng (Linearize.buildMomentsFilter qr D cb false) u₀ us key
    (fun _ => True) trivial (fun _ _ _ _ => trivial) (fun _ _ _ _ => trivial) (fun a b c _ _ _ => by
      change Linearize.mCombineNonAssoc qr D cb a (Linearize.mCombineNonAssoc qr D cb b c) =
        Linearize.mCombineNonAssoc qr D cb a c
      have h : ∀ s, Linearize.mCombineNonAssoc qr D cb a s = Linearize.mCombineNonAssoc qr D cb a
          ⟨none, s.modelInputs, none⟩ := fun s => rfl
      rw [h, hin, h c])
  exact ⟨states, h1, h2⟩

/-- **C74.** The non-associative Taylor filter in parallel mode. -/
theorem taylor_parallel_skips {K Inp : Type*} (rng : Prng K) (qr : QR) (svd : SVD)
    (D : Linearize.Dummies nx) (cb : Linearize.TCallbacks nx ny Inp) (u₀ : Inp) (us : List Inp) (key : Option K) :
    ∃ states, (filter rng (Linearize.buildTaylorFilter qr svd D cb false) (u₀ :: us) true key).result = .ok states ∧
      ∀ t ≤ us.length, states[t]? = some (onlineThrough rng (Linearize.buildTaylorFilter qr svd D cb false) u₀ us key
        (visited t)) := by
  have hin : ∀ b c : Linearize.LState nx Inp,
      (Linearize.tCombineNonAssoc qr svd D cb b c).modelInputs = c.modelInputs := fun b c => by
    simp only [Linearize.tCombineNonAssoc, Linearize.updateState]
    split <;> split <;> rfl
  obtain ⟨states, h1, -, h2⟩ := filter_parallel_visits rng (Linearize.buildTaylorFilter qr svd D cb false) u₀ us key
    (fun _ => True) trivial (fun _ _ _ _ => trivial) (fun _ _ _ _ => trivial) (fun a b c _ _ _ => by
      change Linearize.tCombineNonAssoc qr svd D cb a (Linearize.tCombineNonAssoc qr svd D cb b c) =
        Linearize.tCombineNonAssoc qr svd D cb a c
      have h : ∀ s, Linearize.tCombineNonAssoc qr svd D cb a s = Linearize.tCombineNonAssoc qr svd D cb a
          ⟨none, s.modelInputs, none⟩ := fun s => rfl
      rw [h, hin, h c])
  exact ⟨states, h1, h2⟩

/-- **C74.** The particle filter in parallel mode, for a resampler that does not raise. -/
theorem particle_filter_parallel_skips {K X Inp : Type} {N : ℕ} (rng : Prng K) (mdl : FKModel K X Inp) (dummy : X)
    {R : Resampler K N X} {I : K → (Fin N → Fl) → Fin N → Fin N} {L : K → (Fin N → Fl) → Fin N → Fl}
    (hR : Uses R I L) (u₀ : Inp) (us : List Inp) (k : K) :
    ∃ states, (filter rng (particleFilter rng mdl dummy N R) (u₀ :: us) true (some k)).result = .ok states ∧
      ∀ t ≤ us.length, states[t]? = some (onlineThrough rng (particleFilter rng mdl dummy N R) u₀ us (some k)
        (visited t)) := by
  have h : ∀ a b, (particleFilter rng mdl dummy N R).filterCombine (.ok a) (.ok b) =
      .ok (stepTo rng mdl I L a b.modelInputs b.key) := fun a b => filterCombine_eq hR a b
  have hinit : ∃ a, (particleFilter rng mdl dummy N R).initPrepare u₀ (keyAt rng (some k) (us.length + 1) 0) =
      .ok a := by
    rw [keyAt_nth rng k _ _ (by omega)]
    exact ⟨_, rfl⟩
  have hprep : ∀ t, t ≤ us.length → ∀ u ∈ u₀ :: us, ∃ a, (particleFilter rng mdl dummy N R).filterPrepare u
      (keyAt rng (some k) (us.length + 1) t) = .ok a := by
    intro t ht u _
    rw [keyAt_nth rng k _ _ (by omega)]
    exact ⟨_, rfl⟩
  obtain ⟨states, h1, -, h2⟩ := filter_parallel_visits rng (particleFilter rng mdl dummy N R) u₀ us (some k)
    (fun s => ∃ a, s = .ok a) hinit hprep (by
      rintro _ _ ⟨a, rfl⟩ ⟨b, rfl⟩
      exact ⟨_, h a b⟩) (by
      rintro _ _ _ ⟨a, rfl⟩ ⟨b, rfl⟩ ⟨c, rfl⟩
      rw [h b c, h, h]
      rfl)
  exact ⟨states, h1, h2⟩

/-- **C74.** The marginal particle filter in parallel mode, for a resampler that does not raise. -/
theorem marginal_filter_parallel_skips {K X Inp : Type} {N : ℕ} (rng : Prng K) (mdl : FKModel K X Inp) (dummy : X)
    {R : Resampler K N X} {I : K → (Fin N → Fl) → Fin N → Fin N} {L : K → (Fin N → Fl) → Fin N → Fl}
    (hR : Uses R I L) (u₀ : Inp) (us : List Inp) (k : K) :
    ∃ states, (filter rng (marginalParticleFilter rng mdl dummy N R) (u₀ :: us) true (some k)).result = .ok states ∧
      ∀ t ≤ us.length, states[t]? = some (onlineThrough rng (marginalParticleFilter rng mdl dummy N R) u₀ us (some k)
        (visited t)) := by
  have h : ∀ a : MPFState K X Inp N, ∃ g : Inp → K → MPFState K X Inp N,
      (∀ u k, (g u k).modelInputs = u ∧ (g u k).key = k) ∧
      ∀ b, (marginalParticleFilter rng mdl dummy N R).filterCombine (.ok a) (.ok b) = .ok (g b.modelInputs b.key) :=
    fun a => by
      have hr := hR (rng.nth a.key (N + 1) 0) a.logWeights a.particles
      obtain ⟨r, hr'⟩ : ∃ r, R (rng.nth a.key (N + 1) 0) a.logWeights a.particles N = .ok r := ⟨_, hr⟩
      obtain ⟨x', hx'⟩ : ∃ x' : Inp → Fin N → X, x' = fun u i =>
        mdl.propagate (rng.nth a.key (N + 1) i.succ) (r.positions i) u := ⟨_, rfl⟩
      obtain ⟨lw, hlw⟩ : ∃ lw : Inp → Fin N → Fl, lw = fun u i => Fl.logsumexp fun j =>
        mdl.logPotential (a.particles j) (x' u i) u + (a.logWeights j - Fl.logsumexp a.logWeights) := ⟨_, rfl⟩
      exact ⟨fun u k => ⟨k, x' u, lw u, u, Fl.logsumexp (lw u) - Fl.logsumexp r.logits + a.logZ⟩,
        fun u k => ⟨rfl, rfl⟩, fun b => marginalFilterCombine_eq hr' (congrFun hx' _) (congrFun hlw _)⟩
  have hinit : ∃ a, (marginalParticleFilter rng mdl dummy N R).initPrepare u₀
      (keyAt rng (some k) (us.length + 1) 0) = .ok a := by
    rw [keyAt_nth rng k _ _ (by omega)]
    exact ⟨_, rfl⟩
  have hprep : ∀ t, t ≤ us.length → ∀ u ∈ u₀ :: us, ∃ a, (marginalParticleFilter rng mdl dummy N R).filterPrepare u
      (keyAt rng (some k) (us.length + 1) t) = .ok a := by
    intro t ht u _
    rw [keyAt_nth rng k _ _ (by omega)]
    exact ⟨_, rfl⟩
  obtain ⟨states, h1, -, h2⟩ := filter_parallel_visits rng (marginalParticleFilter rng mdl dummy N R) u₀ us (some k)
    (fun s => ∃ a, s = .ok a) hinit hprep (by
      rintro _ _ ⟨a, rfl⟩ ⟨b, rfl⟩
      obtain ⟨g, -, hg⟩ := h a
      exact ⟨_, hg b⟩) (by
      rintro _ _ _ ⟨a, rfl⟩ ⟨b, rfl⟩ ⟨c, rfl⟩
      obtain ⟨g, -, hg⟩ := h a
      obtain ⟨g', hg1, hg2⟩ := h b
      rw [hg2 c, hg, hg, (hg1 _ _).1, (hg1 _ _).2])
  exact ⟨states, h1, h2⟩

/-- A model whose particles count the steps that were made. -/
def counting (K : Type) : FKModel K ℕ Unit := ⟨fun _ _ => 0, fun _ x _ => x + 1, fun _ _ _ => 0⟩

/-- **C74** (why the warning matters). Particles that count their steps: after `t` steps in sequential mode
they are at `t`; in parallel mode they are at the number of visited steps, which is smaller from `t = 3` on
and at most `2 log₂(t + 1)`. Every resampler that does not raise, every number of particles. -/
theorem particle_filter_parallel_wrong {K : Type} {N : ℕ} (rng : Prng K) (dummy : ℕ)
    {R : Resampler K N ℕ} {I : K → (Fin N → Fl) → Fin N → Fin N} {L : K → (Fin N → Fl) → Fin N → Fl}
    (hR : Uses R I L) (T : ℕ) (k : K) :
    (∃ states, (filter rng (particleFilter rng (counting K) dummy N R) (List.replicate (T + 1) ()) false
      (some k)).result = .ok states ∧ ∀ t ≤ T, ∃ s, states[t]? = some (.ok s) ∧ ∀ i, s.particles i = t) ∧
    ∃ states, (filter rng (particleFilter rng (counting K) dummy N R) (List.replicate (T + 1) ()) true
      (some k)).result = .ok states ∧ ∀ t ≤ T, ∃ s, states[t]? = some (.ok s) ∧
        ∀ i, s.particles i = (visited t).length := by
  rw [List.replicate_succ]
  constructor
  · obtain ⟨states, h1, h2⟩ := filter_sequential_is_online_run rng (particleFilter rng (counting K) dummy N R)
      (() :: List.replicate T ()) (some k) (by simp)
    refine ⟨states, h1, fun t => ?_⟩
    induction t with
    | zero =>
      intro _
      have := h2.first () rfl
      rw [this]
      simp only [List.length_cons, List.length_replicate]
      rw [keyAt_nth rng k _ _ (by omega)]
      exact ⟨_, rfl, fun i => rfl⟩
    | succ t ih =>
      intro ht
      obtain ⟨s, hs, hp⟩ := ih (by omega)
      have := h2.step t () (.ok s) (by simp [List.getElem?_replicate]; omega) hs
      rw [this]
      simp only [List.length_cons, List.length_replicate]
      rw [keyAt_nth rng k _ _ (by omega)]
      refine ⟨_, congrArg some (filterCombine_eq hR s _), fun i => ?_⟩
      exact congrArg (· + 1) (hp _)
  · obtain ⟨states, h1, h2⟩ := particle_filter_parallel_skips rng (counting K) dummy hR () (List.replicate T ()) k
    refine ⟨states, h1, fun t ht => ?_⟩
    rw [List.length_replicate] at h2
    rw [h2 t ht]
    have hgen : ∀ (l : List ℕ), (∀ j ∈ l, j ≤ T) → ∀ (s : PFState K ℕ Unit N) (c : ℕ), (∀ i, s.particles i = c) →
        ∃ s', l.foldl (fun s j => (particleFilter rng (counting K) dummy N R).filterCombine s
          ((particleFilter rng (counting K) dummy N R).filterPrepare ((() :: List.replicate T ()).getD j ())
            (keyAt rng (some k) ((List.replicate T ()).length + 1) j))) (.ok s) = .ok s' ∧
          ∀ i, s'.particles i = c + l.length := by
      intro l
      induction l with
      | nil => intro _ s c hs; exact ⟨s, rfl, hs⟩
      | cons j l ih =>
        intro hl s c hs
        have hj := hl j (by simp)
        rw [List.foldl_cons, keyAt_nth rng k _ _ (by rw [List.length_replicate]; omega)]
        obtain ⟨s', h3, h4⟩ := ih (fun j hj => hl j (by simp [hj])) (stepTo rng (counting K) I L s
          ((() :: List.replicate T ()).getD j ()) _) (c + 1) (fun i => congrArg (· + 1) (hs _))
        refine ⟨s', ?_, fun i => by rw [h4, List.length_cons]; omega⟩
        rw [← h3]
        congr 1
        exact filterCombine_eq hR s _
    unfold onlineThrough
    rw [keyAt_nth rng k _ _ (by omega)]
    obtain ⟨s', h3, h4⟩ := hgen (visited t) (fun j hj => ((visited_sorted t).2.1 j hj).2.trans ht)
      ⟨rng.nth k ((List.replicate T ()).length + 1) ⟨0, by omega⟩, fun _ => 0, fun _ => 0, id, (),
        Fl.logsumexp (fun _ : Fin N => (0 : Fl)) - Fl.log (Fl.fin N)⟩ 0 (fun _ => rfl)
    exact ⟨s', congrArg some h3, fun i => by rw [h4, zero_add]⟩

/-- The hypotheses are met by multinomial resampling; 15 steps are replaced by 4. -/
example : visited 15 = [1, 3, 7, 15] := by simp [visited]
example (rng : Rng ℕ) : ∃ I L, Uses (X := ℕ) (N := 2) (multinomial rng .cpu) I L :=
  ⟨_, _, uses_multinomial rng .cpu⟩

end Methods

end Cuthbert
