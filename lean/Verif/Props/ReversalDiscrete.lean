import Verif.Props.Discrete
import Verif.Spec.Reversal

/-!
# C143: smoothing a hidden Markov model does not depend on the direction of time
-/

namespace Cuthbert.Spec.HMM.Reverses

variable {X : Type*} [Fintype X] [DecidableEq X] {p : ℕ → X → ℝ} {T : ℕ} {M M' : HMM X}

omit [Fintype X] [DecidableEq X] in
/-- The joint probability of a path and the data does not depend on the direction. -/
theorem joint (h : Reverses p T M M') (hT : 1 ≤ T) (x : Fin (T + 1) → X) : M.joint T x = M'.joint T (x ∘ Fin.rev) := by
  obtain ⟨y, hy⟩ : ∃ y : ℕ → X, y = fun t => if h : t < T + 1 then x ⟨t, h⟩ else x 0 := ⟨_, rfl⟩
  have hx : ∀ t (ht : t < T + 1), x ⟨t, ht⟩ = y t := fun t ht => by rw [hy]; simp only [dif_pos ht]
  have e1 : M.joint T x = p 0 (y 0) * ((∏ t ∈ Finset.range T, M.trans t (y t) (y (t + 1))) *
      ∏ t ∈ Finset.range T, M.lik t (y (t + 1))) := by
    rw [HMM.joint, Finset.prod_mul_distrib, h.init]
    congr 1
    · exact congrArg (p 0) (hx 0 (by omega))
    · rw [← Fin.prod_univ_eq_prod_range (fun t => M.trans t (y t) (y (t + 1))),
        ← Fin.prod_univ_eq_prod_range (fun t => M.lik t (y (t + 1)))]
      congr 1
      · refine Finset.prod_congr rfl fun t _ => ?_
        rw [← hx t (by omega), ← hx (t + 1) (by omega)]
        rfl
      · refine Finset.prod_congr rfl fun t _ => ?_
        rw [← hx (t + 1) (by omega)]
        rfl
  have e2 : M'.joint T (x ∘ Fin.rev) = p T (y T) * ((∏ t ∈ Finset.range T, M'.trans t (y (T - t)) (y (T - 1 - t))) *
      ∏ t ∈ Finset.range T, M'.lik t (y (T - 1 - t))) := by
    rw [HMM.joint, Finset.prod_mul_distrib, h.init']
    congr 1
    · rw [← hx T (by omega)]
      refine congrArg (p T) (congrArg x (Fin.ext ?_))
      simp [Fin.rev]
    · rw [← Fin.prod_univ_eq_prod_range (fun t => M'.trans t (y (T - t)) (y (T - 1 - t))),
        ← Fin.prod_univ_eq_prod_range (fun t => M'.lik t (y (T - 1 - t)))]
      have a1 : ∀ t : Fin T, (x ∘ Fin.rev) t.castSucc = y (T - t) := fun t => by
        rw [← hx _ (by omega)]
        refine congrArg x (Fin.ext ?_)
        simp [Fin.rev]
      have a2 : ∀ t : Fin T, (x ∘ Fin.rev) t.succ = y (T - 1 - t) := fun t => by
        rw [← hx _ (by omega)]
        refine congrArg x (Fin.ext ?_)
        simp [Fin.rev]
        omega
      simp only [a1, a2]
  have hb : ∀ n ≤ T, p 0 (y 0) * ∏ t ∈ Finset.range n, M.trans t (y t) (y (t + 1)) =
      p n (y n) * ∏ t ∈ Finset.range n, M'.trans (T - 1 - t) (y (t + 1)) (y t) := by
    intro n
    induction n with
    | zero => intro _; simp
    | succ n ih =>
      intro hn
      rw [Finset.prod_range_succ, Finset.prod_range_succ, ← mul_assoc, ih (by omega), mul_right_comm, h.trans n (by omega),
        mul_right_comm, mul_assoc]
  have hB : (∏ t ∈ Finset.range T, M'.trans (T - 1 - t) (y (t + 1)) (y t)) =
      ∏ t ∈ Finset.range T, M'.trans t (y (T - t)) (y (T - 1 - t)) := by
    rw [← Finset.prod_range_reflect]
    refine Finset.prod_congr rfl fun t ht => ?_
    have := Finset.mem_range.mp ht
    rw [show T - 1 - (T - 1 - t) = t by omega, show T - 1 - t + 1 = T - t by omega]
  have hL : (∏ t ∈ Finset.range T, M.lik t (y (t + 1))) = ∏ t ∈ Finset.range T, M'.lik t (y (T - 1 - t)) := by
    obtain ⟨n, rfl⟩ : ∃ n, T = n + 1 := ⟨T - 1, by omega⟩
    have l1 := h.last
    have l2 := h.last'
    rw [Nat.add_sub_cancel] at l1 l2
    rw [Finset.prod_range_succ, Finset.prod_range_succ, l1, l2, ← Finset.prod_range_reflect]
    congr 1
    refine Finset.prod_congr rfl fun t ht => ?_
    have := Finset.mem_range.mp ht
    rw [← h.lik (n - 1 - t) (by omega)]
    congr 2 <;> omega
  rw [e1, e2, ← mul_assoc, hb T le_rfl, hB, hL, mul_assoc]

omit [DecidableEq X] in
theorem evidence (h : Reverses p T M M') (hT : 1 ≤ T) : M'.evidence T = M.evidence T := by
  rw [HMM.evidence, HMM.evidence, ← (Equiv.arrowCongr Fin.revPerm (Equiv.refl X)).sum_comp]
  refine Finset.sum_congr rfl fun x _ => ?_
  rw [h.joint hT]
  rfl

theorem smoothLaw (h : Reverses p T M M') (hT : 1 ≤ T) (t : Fin (T + 1)) (k : X) :
    M'.smoothLaw T t k = M.smoothLaw T t.rev k := by
  rw [HMM.smoothLaw, HMM.smoothLaw, h.evidence hT, HMM.smoothJoint, HMM.smoothJoint,
    ← (Equiv.arrowCongr Fin.revPerm (Equiv.refl X)).sum_comp]
  congr 1
  refine Finset.sum_congr rfl fun x _ => ?_
  rw [h.joint hT]
  rfl

end Cuthbert.Spec.HMM.Reverses

namespace Cuthbert.Discrete
open Fl Spec Spec.HMM

variable {n : ℕ} {Inp Inp' K K' : Type*} {p : ℕ → Fin (n + 1) → ℝ} {M M' : HMM (Fin (n + 1))}
  {getInit : Inp → Fin (n + 1) → Fl} {getTrans : Inp → Fin (n + 1) → Fin (n + 1) → Fl}
  {getObs : Inp → Fin (n + 1) → Fl} {inputs : List Inp}
  {getInit' : Inp' → Fin (n + 1) → Fl} {getTrans' : Inp' → Fin (n + 1) → Fin (n + 1) → Fl}
  {getObs' : Inp' → Fin (n + 1) → Fl} {inputs' : List Inp'}

/-- **C143** (filter). The log normalising constants at the end are the same in both directions. -/
theorem filter_reversed (hR : Represents M getInit getTrans getObs inputs) (hR' : Represents M' getInit' getTrans' getObs' inputs')
    (hV : Valid M) (hV' : Valid M') (T : ℕ) (hT : 1 ≤ T) (h : Reverses p T M M') (hlen : inputs.length = T + 1)
    (hlen' : inputs'.length = T + 1) (hpos : RowsPositive M T) (hpos' : RowsPositive M' T)
    (rng : Prng K) (rng' : Prng K') (key : Option K) (key' : Option K') (parallel parallel' : Bool) :
    ∃ fs fs' s s', (filter rng (buildFilter (K := K) getInit getTrans getObs) inputs parallel key).result = .ok fs ∧
      (filter rng' (buildFilter (K := K') getInit' getTrans' getObs') inputs' parallel' key').result = .ok fs' ∧
      fs[T]? = some s ∧ fs'[T]? = some s' ∧ ∃ l : ℝ, s.logNormalizingConstant = fin l ∧ s'.logNormalizingConstant = fin l := by
  obtain ⟨fs, a, hl, hall⟩ := discrete_filter_exact hR hV (by rintro rfl; simp at hlen) (by rw [hlen]; exact hpos) rng key parallel
  obtain ⟨fs', a', hl', hall'⟩ := discrete_filter_exact hR' hV' (by rintro rfl; simp at hlen') (by rw [hlen']; exact hpos') rng'
    key' parallel'
  have h1 : T < fs.length := by omega
  have h2 : T < fs'.length := by omega
  refine ⟨fs, fs', _, _, a, a', List.getElem?_eq_getElem h1, List.getElem?_eq_getElem h2, _,
    (hall T _ (List.getElem?_eq_getElem h1)).2.2.1, ?_⟩
  rw [(hall' T _ (List.getElem?_eq_getElem h2)).2.2.1, h.evidence hT]

/-- **C143** (smoother). The smoother of the model run backwards returns at time `t` what the smoother of the model returns at
time `T - t`, in every combination of modes. -/
theorem smoother_reversed (hR : Represents M getInit getTrans getObs inputs)
    (hR' : Represents M' getInit' getTrans' getObs' inputs') (hV : Valid M) (hV' : Valid M') (T : ℕ) (hT : 1 ≤ T)
    (h : Reverses p T M M') (hlen : inputs.length = T + 1) (hlen' : inputs'.length = T + 1) (hpos : RowsPositive M T)
    (hpos' : RowsPositive M' T) (hreach : AllReachable M T) (hreach' : AllReachable M' T)
    (rng rngS : Prng K) (rng' rngS' : Prng K') (key keyS : Option K) (key' keyS' : Option K')
    (parallel parallelS parallel' parallelS' : Bool) (dummy : Inp → Inp) (dummy' : Inp' → Inp')
    (fs : List (FilterState n Inp)) (fs' : List (FilterState n Inp'))
    (hfs : (filter rng (buildFilter (K := K) getInit getTrans getObs) inputs parallel key).result = .ok fs)
    (hfs' : (filter rng' (buildFilter (K := K') getInit' getTrans' getObs') inputs' parallel' key').result = .ok fs') :
    ∃ states states', (smoother rngS FilterState.modelInputs (fun u => .ok (dummy u))
        (buildSmoother dummy getTrans) fs none parallelS keyS).result = .ok states ∧
      (smoother rngS' FilterState.modelInputs (fun u => .ok (dummy' u))
        (buildSmoother dummy' getTrans') fs' none parallelS' keyS').result = .ok states' ∧
      ∀ t ≤ T, ∃ s s', states[T - t]? = some s ∧ states'[t]? = some s' ∧
        ∃ w : Fin (n + 1) → ℝ, ∀ k, s.dist k = fin (w k) ∧ s'.dist k = fin (w k) := by
  obtain ⟨states, a, hl, hall⟩ := discrete_smoother_exact hR hV T hlen hT hpos hreach rng rngS key keyS parallel parallelS dummy
    fs hfs
  obtain ⟨states', a', hl', hall'⟩ := discrete_smoother_exact hR' hV' T hlen' hT hpos' hreach' rng' rngS' key' keyS' parallel'
    parallelS' dummy' fs' hfs'
  refine ⟨states, states', a, a', fun t ht => ?_⟩
  have h1 : T - t < states.length := by omega
  have h2 : t < states'.length := by omega
  refine ⟨_, _, List.getElem?_eq_getElem h1, List.getElem?_eq_getElem h2, _, fun k =>
    ⟨(hall _ (by omega) _ (List.getElem?_eq_getElem h1)).1 k, ?_⟩⟩
  rw [(hall' _ (by omega) _ (List.getElem?_eq_getElem h2)).1 k, h.smoothLaw hT]
  congr 2
  refine Fin.ext ?_
  simp [Fin.rev]

/-! ### Models that can be run backwards -/

/-- A chain with a fixed transition matrix in detailed balance with its initial law is its own reversal: only the data are to
be reversed. `g t` is the likelihood of the observation of the state at time `t`, for `t = 1, ..., T - 1`. -/
theorem reverses_reversible {X : Type*} {π : X → ℝ} {A : X → X → ℝ} (hA : ∀ i j, π i * A i j = π j * A j i) (T : ℕ)
    (g : ℕ → X → ℝ) :
    Reverses (fun _ => π) T ⟨π, fun _ => A, fun t => if t + 1 < T then g (t + 1) else 1⟩
      ⟨π, fun _ => A, fun t => if t + 1 < T then g (T - 1 - t) else 1⟩ := by
  refine ⟨fun _ => rfl, fun _ => rfl, fun t _ i j => hA i j, fun t ht i => ?_, fun i => ?_, fun i => ?_⟩
  · dsimp only
    rw [if_pos ht, if_pos (by omega), show T - 1 - (T - 2 - t) = t + 1 by omega]
  · dsimp only
    rw [if_neg (by omega)]
    rfl
  · dsimp only
    rw [if_neg (by omega)]
    rfl

/-- The law of the state at each time, without data. -/
noncomputable def lawAt (M : HMM (Fin (n + 1))) : ℕ → Fin (n + 1) → ℝ
  | 0 => M.init
  | t + 1 => fun j => ∑ i, lawAt M t i * M.trans t i j

/-- Every model without an observation in its last step in which no state is impossible can be run backwards. -/
theorem exists_reversal (hV : Valid M) {T : ℕ} (hT : 1 ≤ T) (hlast : ∀ i, M.lik (T - 1) i = 1)
    (hp : ∀ t ≤ T, ∀ i, 0 < lawAt M t i) : ∃ M', Valid M' ∧ Reverses (lawAt M) T M M' := by
  have hsum : ∀ t, ∑ i, lawAt M t i = 1 := by
    intro t
    induction t with
    | zero => exact hV.init_sum
    | succ t ih =>
      simp only [lawAt]
      rw [Finset.sum_comm]
      simp only [← Finset.mul_sum, hV.trans_sum, mul_one, ih]
  refine ⟨⟨lawAt M T, fun s j i => if s < T then lawAt M (T - 1 - s) i * M.trans (T - 1 - s) i j / lawAt M (T - s) j else
    if i = j then 1 else 0, fun s i => if s + 1 < T then M.lik (T - 2 - s) i else 1⟩, ⟨fun j => (hp T le_rfl j).le, hsum T,
      fun s j i => ?_, fun s j => ?_⟩, ⟨fun _ => rfl, fun _ => rfl, fun t ht i j => ?_, fun t ht i => ?_, hlast, fun i => ?_⟩⟩
  · dsimp only
    split_ifs with hs h
    · exact div_nonneg (mul_nonneg (hp _ (by omega) _).le (hV.trans_nonneg _ _ _)) (hp _ (by omega) _).le
    · exact zero_le_one
    · exact le_rfl
  · dsimp only
    split_ifs with hs
    · rw [← Finset.sum_div]
      have e : lawAt M (T - s) j = ∑ i, lawAt M (T - 1 - s) i * M.trans (T - 1 - s) i j := by
        rw [show T - s = T - 1 - s + 1 by omega]
        rfl
      rw [← e, div_self (hp _ (by omega) _).ne']
    · simp
  · dsimp only
    rw [if_pos (by omega), show T - 1 - (T - 1 - t) = t by omega, show T - (T - 1 - t) = t + 1 by omega,
      mul_div_cancel₀ _ (hp _ (by omega) _).ne']
  · dsimp only
    rw [if_pos (by omega), show T - 2 - (T - 2 - t) = t by omega]
  · dsimp only
    rw [if_neg (by omega)]

/-! ### Non-vacuity -/

/-- If everything is positive, the conditions of filter and smoother hold. -/
theorem conditions_of_pos {T : ℕ} (hi : ∀ i, 0 < M.init i) (ht : ∀ t i j, 0 < M.trans t i j) (hl : ∀ t i, 0 < M.lik t i) :
    RowsPositive M T ∧ AllReachable M T := by
  have hj : ∀ t (x : Fin (t + 1) → Fin (n + 1)), 0 < M.joint t x := fun t x =>
    mul_pos (hi _) (Finset.prod_pos fun s _ => mul_pos (ht _ _ _) (hl _ _))
  refine ⟨fun t _ i => Finset.sum_pos (fun j _ => mul_pos (ht _ _ _) (hl _ _)) ⟨0, Finset.mem_univ _⟩, fun t _ j =>
    Finset.sum_pos (fun i _ => mul_pos ?_ (ht _ _ _)) ⟨0, Finset.mem_univ _⟩⟩
  refine Finset.sum_pos' (fun x _ => ?_) ⟨fun _ => i, Finset.mem_univ _, ?_⟩
  · split_ifs
    exacts [(hj t x).le, le_rfl]
  · rw [if_pos rfl]
    exact hj t _

/-- A chain with two states that stays with probability 3/4, and any positive likelihoods: the same chain with the data in
reverse order is its reversal, and both satisfy the conditions of filter and smoother. -/
theorem exists_reversed (T : ℕ) (g : ℕ → Fin 2 → ℝ) (hg : ∀ t i, 0 < g t i) :
    ∃ M M' : HMM (Fin (1 + 1)), Reverses (fun _ _ => 1 / 2) T M M' ∧ Valid M ∧ Valid M' ∧ RowsPositive M T ∧ RowsPositive M' T ∧
      AllReachable M T ∧ AllReachable M' T ∧ (∀ t, t + 1 < T → M.lik t = g (t + 1)) ∧
      (∀ t, t + 1 < T → M'.lik t = g (T - 1 - t)) := by
  have hA : ∀ i j : Fin 2, (1 / 2 : ℝ) * (if i = j then 3 / 4 else 1 / 4) = 1 / 2 * (if j = i then 3 / 4 else 1 / 4) := by
    intro i j
    simp only [eq_comm]
  have hr := reverses_reversible (π := fun _ => (1 / 2 : ℝ)) (A := fun i j : Fin 2 => if i = j then 3 / 4 else 1 / 4) hA T g
  have h2 : ∀ i : Fin 2, (∑ j : Fin 2, if i = j then (3 / 4 : ℝ) else 1 / 4) = 1 := fun i => by
    rw [Fin.sum_univ_two]
    fin_cases i <;> norm_num
  have hv : ∀ l, Valid (n := 1) ⟨fun _ => (1 / 2 : ℝ), fun _ i j => if i = j then 3 / 4 else 1 / 4, l⟩ := fun l => by
    refine ⟨fun _ => by norm_num, by norm_num, fun t i j => ?_, fun t i => ?_⟩
    · dsimp only; split_ifs <;> norm_num
    · exact h2 i
  have ht : ∀ i j : Fin 2, (0 : ℝ) < if i = j then 3 / 4 else 1 / 4 := fun i j => by split_ifs <;> norm_num
  have hl : ∀ (P : Prop) [Decidable P] t (i : Fin 2), 0 < (if P then g t else 1) i := fun P _ t i => by
    split_ifs
    exacts [hg t i, one_pos]
  obtain ⟨a1, a2⟩ := conditions_of_pos (n := 1) (T := T) (M := ⟨fun _ => (1 / 2 : ℝ), fun _ i j => if i = j then 3 / 4 else 1 / 4,
    fun t => if t + 1 < T then g (t + 1) else 1⟩) (fun _ => by norm_num) (fun _ => ht) (fun t => hl _ _)
  obtain ⟨b1, b2⟩ := conditions_of_pos (n := 1) (T := T) (M := ⟨fun _ => (1 / 2 : ℝ), fun _ i j => if i = j then 3 / 4 else 1 / 4,
    fun t => if t + 1 < T then g (T - 1 - t) else 1⟩) (fun _ => by norm_num) (fun _ => ht) (fun t => hl _ _)
  exact ⟨_, _, hr, hv _, hv _, a1, b1, a2, b2, fun t ht => if_pos ht, fun t ht => if_pos ht⟩

end Cuthbert.Discrete
