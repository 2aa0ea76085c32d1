import Verif.Props.Discrete

/-!
# Property C89 for discrete models

Run the filter on every possible data set. The likelihoods it returns sum to one, and its distributions, averaged over
the data sets with these likelihoods, are the prior distributions.
-/

namespace Cuthbert.Spec.HMM
open Finset

variable {X O : Type*} [Fintype X] [DecidableEq X] [Fintype O]

/-- The model with the data `y_1..y_T`: `emit t j o` is the probability of seeing `o` at time `t + 1` in state `j`. -/
def withData (M : HMM X) (emit : ℕ → X → O → ℝ) {T : ℕ} (y : Fin T → O) : HMM X where
  init := M.init
  trans := M.trans
  lik t j := if h : t < T then emit t j (y ⟨t, h⟩) else 1

/-- The same model without data. -/
def noData (M : HMM X) : HMM X := ⟨M.init, M.trans, fun _ _ => 1⟩

omit [Fintype X] [DecidableEq X] in
theorem sum_data_joint (M : HMM X) (emit : ℕ → X → O → ℝ) (hsum : ∀ t j, ∑ o, emit t j o = 1) {T : ℕ}
    (x : Fin (T + 1) → X) : ∑ y : Fin T → O, (M.withData emit y).joint T x = M.noData.joint T x := by
  classical
  unfold joint
  have e : ∀ y : Fin T → O, (M.withData emit y).init (x 0) *
      ∏ t : Fin T, (M.withData emit y).trans t (x t.castSucc) (x t.succ) * (M.withData emit y).lik t (x t.succ) =
      (M.init (x 0) * ∏ t : Fin T, M.trans t (x t.castSucc) (x t.succ)) * ∏ t : Fin T, emit t (x t.succ) (y t) := by
    intro y
    rw [prod_mul_distrib, mul_assoc]
    congr 1
    congr 1
    refine prod_congr rfl fun t _ => ?_
    simp [withData]
  simp only [e]
  rw [← mul_sum]
  have h : ∑ y : Fin T → O, ∏ t : Fin T, emit t (x t.succ) (y t) = 1 := by
    rw [← Fintype.piFinset_univ, ← prod_univ_sum]
    simp [hsum]
  rw [h, mul_one]
  simp [noData]

variable (M : HMM X) (emit : ℕ → X → O → ℝ) (hsum : ∀ t j, ∑ o, emit t j o = 1)
include hsum

theorem sum_data_smoothJoint {T : ℕ} (t : Fin (T + 1)) (k : X) :
    ∑ y : Fin T → O, (M.withData emit y).smoothJoint T t k = M.noData.smoothJoint T t k := by
  unfold smoothJoint
  rw [sum_comm]
  refine sum_congr rfl fun x _ => ?_
  split_ifs
  · exact sum_data_joint M emit hsum x
  · simp

omit [DecidableEq X] in
theorem sum_data_evidence {T : ℕ} : ∑ y : Fin T → O, (M.withData emit y).evidence T = M.noData.evidence T := by
  unfold evidence
  rw [sum_comm]
  exact sum_congr rfl fun x _ => sum_data_joint M emit hsum x

omit hsum [Fintype O] in
theorem noData_smoothJoint (htrans : ∀ t i, ∑ j, M.trans t i j = 1) (T : ℕ) (t : Fin (T + 1)) (k : X) :
    M.noData.smoothJoint T t k = M.noData.filterJoint t k := by
  have hf : ∀ m t k, M.noData.future t m k = 1 := by
    intro m
    induction m with
    | zero => intro t k; exact future_zero _ _ _
    | succ m ih =>
      intro t k
      rw [future_succ]
      simp only [ih, mul_one]
      simp [stepMat, noData, htrans]
  obtain ⟨t, ht⟩ := t
  obtain ⟨m, rfl⟩ : ∃ m, T = t + m := ⟨T - t, by omega⟩
  rw [smoothJoint_eq, hf, mul_one]

omit hsum [Fintype O] in
theorem noData_evidence (hinit : ∑ j, M.init j = 1) (htrans : ∀ t i, ∑ j, M.trans t i j = 1) (T : ℕ) :
    M.noData.evidence T = 1 := by
  rw [evidence_eq_sum]
  induction T with
  | zero => simp only [filterJoint_zero]; exact hinit
  | succ T ih =>
    simp only [filterJoint_succ]
    rw [sum_comm, ← ih]
    refine sum_congr rfl fun j _ => ?_
    rw [← mul_sum]
    simp [stepMat, noData, htrans]

end Cuthbert.Spec.HMM

namespace Cuthbert.Discrete
open Cuthbert Fl Spec Finset

variable {n : ℕ} {Inp K O : Type*} [Fintype O] {M : HMM (Fin (n + 1))}
  {getInit : Inp → Fin (n + 1) → Fl} {getTrans : Inp → Fin (n + 1) → Fin (n + 1) → Fl}
  {getObs : Inp → Fin (n + 1) → Fl}

omit [Fintype O] in
theorem Valid.withData (hV : Valid M) (emit : ℕ → Fin (n + 1) → O → ℝ) {T : ℕ} (y : Fin T → O) :
    Valid (M.withData emit y) := ⟨hV.init_nonneg, hV.init_sum, hV.trans_nonneg, hV.trans_sum⟩

/-- **C89** (discrete filter). Over all data sets of a given length, the likelihoods that the filter returns sum to
one; and the distributions that it returns, averaged over the data sets with these likelihoods, give the prior
distribution of the last state. -/
theorem discrete_filter_calibrated (hV : Valid M) (emit : ℕ → Fin (n + 1) → O → ℝ)
    (hsum : ∀ t j, ∑ o, emit t j o = 1) {T : ℕ} (inputs : (Fin T → O) → List Inp)
    (hlen : ∀ y, (inputs y).length = T + 1)
    (hR : ∀ y, Represents (M.withData emit y) getInit getTrans getObs (inputs y))
    (hpos : ∀ y : Fin T → O, RowsPositive (M.withData emit y) T) (rng : Prng K) (key : Option K) (parallel : Bool) :
    ∃ (l : (Fin T → O) → ℝ) (p : (Fin T → O) → Fin (n + 1) → ℝ),
      (∀ y, ∃ states s, (filter rng (buildFilter (K := K) getInit getTrans getObs) (inputs y) parallel key).result
        = .ok states ∧ states[T]? = some s ∧ s.logNormalizingConstant = fin (l y) ∧ ∀ k, s.dist k = fin (p y k)) ∧
      ∑ y, Real.exp (l y) = 1 ∧ ∀ k, ∑ y, Real.exp (l y) * p y k = M.noData.filterJoint T k := by
  have hex : ∀ y, ∃ states s, (filter rng (buildFilter (K := K) getInit getTrans getObs) (inputs y) parallel
      key).result = .ok states ∧ states[T]? = some s ∧
      s.logNormalizingConstant = fin (Real.log ((M.withData emit y).evidence T)) ∧
      (∀ k, s.dist k = fin ((M.withData emit y).filterLaw T k)) ∧ 0 < (M.withData emit y).evidence T := fun y => by
    have hne : inputs y ≠ [] := fun h => by have := hlen y; rw [h] at this; simp at this
    obtain ⟨states, h1, h2, h3⟩ := discrete_filter_exact (hR y) (hV.withData emit y) hne
      (by rw [hlen y]; exact hpos y) rng key parallel
    have hl : T < states.length := by rw [h2, hlen]; omega
    obtain ⟨g1, g2, g3, -⟩ := h3 T states[T] (List.getElem?_eq_getElem hl)
    exact ⟨states, states[T], h1, List.getElem?_eq_getElem hl, g3, g1, g2⟩
  refine ⟨fun y => Real.log ((M.withData emit y).evidence T), fun y => (M.withData emit y).filterLaw T, fun y => ?_, ?_,
    fun k => ?_⟩
  · obtain ⟨states, s, h1, h2, h3, h4, -⟩ := hex y
    exact ⟨states, s, h1, h2, h3, h4⟩
  · have : ∀ y, Real.exp (Real.log ((M.withData emit y).evidence T)) = (M.withData emit y).evidence T := fun y => by
      obtain ⟨_, _, -, -, -, -, h⟩ := hex y; exact Real.exp_log h
    simp only [this]
    rw [HMM.sum_data_evidence M emit hsum, HMM.noData_evidence M hV.init_sum hV.trans_sum]
  · have : ∀ y, Real.exp (Real.log ((M.withData emit y).evidence T)) * (M.withData emit y).filterLaw T k =
        (M.withData emit y).smoothJoint T (Fin.last T) k := fun y => by
      obtain ⟨_, _, -, -, -, -, h⟩ := hex y
      rw [Real.exp_log h, HMM.filterLaw, mul_div_cancel₀ _ h.ne']
      rfl
    simp only [this]
    rw [HMM.sum_data_smoothJoint M emit hsum]
    rfl

/-- **C89** (discrete smoother). The distributions that the smoother returns at a time `t ≤ T`, averaged over all data
sets with the likelihoods that the filter returns, give the prior distribution of the state at time `t`. -/
theorem discrete_smoother_calibrated (hV : Valid M) (emit : ℕ → Fin (n + 1) → O → ℝ)
    (hsum : ∀ t j, ∑ o, emit t j o = 1) {T : ℕ} (hT : 1 ≤ T) (inputs : (Fin T → O) → List Inp)
    (hlen : ∀ y, (inputs y).length = T + 1)
    (hR : ∀ y, Represents (M.withData emit y) getInit getTrans getObs (inputs y))
    (hpos : ∀ y : Fin T → O, RowsPositive (M.withData emit y) T) (hreach : ∀ y : Fin T → O, AllReachable (M.withData emit y) T)
    (rng rng' : Prng K) (key key' : Option K) (parallel parallel' : Bool) (dummy : Inp → Inp) (t : ℕ) (ht : t ≤ T) :
    ∃ (l : (Fin T → O) → ℝ) (p : (Fin T → O) → Fin (n + 1) → ℝ),
      (∀ y, ∃ fs s states s', (filter rng (buildFilter (K := K) getInit getTrans getObs) (inputs y) parallel key).result
        = .ok fs ∧ fs[T]? = some s ∧ s.logNormalizingConstant = fin (l y) ∧
        (smoother rng' FilterState.modelInputs (fun u => .ok (dummy u)) (buildSmoother dummy getTrans) fs none parallel'
          key').result = .ok states ∧ states[t]? = some s' ∧ ∀ k, s'.dist k = fin (p y k)) ∧
      ∀ k, ∑ y, Real.exp (l y) * p y k = M.noData.filterJoint t k := by
  have hex : ∀ y, ∃ fs s states s', (filter rng (buildFilter (K := K) getInit getTrans getObs) (inputs y) parallel
      key).result = .ok fs ∧ fs[T]? = some s ∧
      s.logNormalizingConstant = fin (Real.log ((M.withData emit y).evidence T)) ∧
      (smoother rng' FilterState.modelInputs (fun u => .ok (dummy u)) (buildSmoother dummy getTrans) fs none parallel'
          key').result = .ok states ∧ states[t]? = some s' ∧
      (∀ k, s'.dist k = fin ((M.withData emit y).smoothLaw T ⟨t, by omega⟩ k)) ∧
      0 < (M.withData emit y).evidence T := fun y => by
    have hne : inputs y ≠ [] := fun h => by have := hlen y; rw [h] at this; simp at this
    obtain ⟨fs, h1, h2, h3⟩ := discrete_filter_exact (hR y) (hV.withData emit y) hne
      (by rw [hlen y]; exact hpos y) rng key parallel
    have hl : T < fs.length := by rw [h2, hlen]; omega
    obtain ⟨-, g2, g3, -⟩ := h3 T fs[T] (List.getElem?_eq_getElem hl)
    obtain ⟨states, k1, k2, k3⟩ := discrete_smoother_exact (hR y) (hV.withData emit y) T (hlen y) hT (hpos y) (hreach y)
      rng rng' key key' parallel parallel' dummy fs h1
    have hl' : t < states.length := by omega
    exact ⟨fs, fs[T], states, states[t], h1, List.getElem?_eq_getElem hl, g3, k1, List.getElem?_eq_getElem hl',
      (k3 t (by omega) _ (List.getElem?_eq_getElem hl')).1, g2⟩
  refine ⟨fun y => Real.log ((M.withData emit y).evidence T),
    fun y => (M.withData emit y).smoothLaw T ⟨t, by omega⟩, fun y => ?_, fun k => ?_⟩
  · obtain ⟨fs, s, states, s', h1, h2, h3, h4, h5, h6, -⟩ := hex y
    exact ⟨fs, s, states, s', h1, h2, h3, h4, h5, h6⟩
  · have : ∀ y, Real.exp (Real.log ((M.withData emit y).evidence T)) *
        (M.withData emit y).smoothLaw T ⟨t, by omega⟩ k = (M.withData emit y).smoothJoint T ⟨t, by omega⟩ k := fun y => by
      obtain ⟨_, _, _, _, -, -, -, -, -, -, h⟩ := hex y
      rw [Real.exp_log h, HMM.smoothLaw, mul_div_cancel₀ _ h.ne']
    simp only [this]
    rw [HMM.sum_data_smoothJoint M emit hsum, HMM.noData_smoothJoint M hV.trans_sum]

/-- Non-vacuity: a two-state model with two possible observations, whose inputs are the observations. -/
example : ∃ (M : HMM (Fin (1 + 1))) (emit : ℕ → Fin (1 + 1) → Fin 2 → ℝ) (getInit : Option (Fin 2) → Fin (1 + 1) → Fl)
    (getTrans : Option (Fin 2) → Fin (1 + 1) → Fin (1 + 1) → Fl) (getObs : Option (Fin 2) → Fin (1 + 1) → Fl), Valid M ∧
    (∀ t j, ∑ o, emit t j o = 1) ∧ emit 0 0 0 ≠ emit 0 1 0 ∧ ∀ (T : ℕ) (y : Fin T → Fin 2),
      Represents (M.withData emit y) getInit getTrans getObs (none :: List.ofFn fun t => some (y t)) ∧
      RowsPositive (M.withData emit y) T ∧ AllReachable (M.withData emit y) T := by
  have hlp : ∀ (j o : Fin 2), (0 : ℝ) < if o = j then 3 / 4 else 1 / 4 := fun j o => by split_ifs <;> norm_num
  have htp : ∀ (i j : Fin 2), (0 : ℝ) < if i = j then 2 / 3 else 1 / 3 := fun j o => by split_ifs <;> norm_num
  obtain ⟨M, hM⟩ : ∃ M : HMM (Fin (1 + 1)), M = ⟨fun _ => 1 / 2, fun _ i j => if i = j then 2 / 3 else 1 / 3,
    fun _ _ => 1⟩ := ⟨_, rfl⟩
  obtain ⟨emit, he⟩ : ∃ emit : ℕ → Fin (1 + 1) → Fin 2 → ℝ, emit = fun _ j o => if o = j then 3 / 4 else 1 / 4 :=
    ⟨_, rfl⟩
  refine ⟨M, emit, fun _ _ => fin (1 / 2), fun _ i j => fin (if i = j then 2 / 3 else 1 / 3),
    fun u j => u.elim nan fun o => fin (Real.log (if o = j then 3 / 4 else 1 / 4)), ⟨?_, ?_, ?_, ?_⟩, ?_, ?_,
    fun T y => ?_⟩
  · intro j; rw [hM]; norm_num
  · rw [hM]; simp
  · intro t i j; rw [hM]; exact (htp i j).le
  · intro t i; rw [hM]; fin_cases i <;> norm_num [Fin.sum_univ_succ]
  · intro t j; rw [he]; fin_cases j <;> norm_num [Fin.sum_univ_two]
  · rw [he]; norm_num
  · have hlik : ∀ t j, 0 < (M.withData emit y).lik t j := by
      intro t j
      simp only [HMM.withData, he]
      split_ifs <;> norm_num
    have htr : ∀ t i j, 0 < (M.withData emit y).trans t i j := by
      intro t i j; simp only [HMM.withData, hM]; exact htp i j
    have hfj : ∀ t k, 0 < (M.withData emit y).filterJoint t k := by
      intro t
      induction t with
      | zero => intro k; rw [HMM.filterJoint_zero]; simp [HMM.withData, hM]
      | succ t ih =>
        intro k
        rw [HMM.filterJoint_succ]
        exact sum_pos (fun j _ => mul_pos (ih j) (mul_pos (htr t j k) (hlik t k))) univ_nonempty
    refine ⟨⟨fun u _ j => ?_, fun t u _ i j => ?_, fun t u hu j => ?_⟩, fun t _ i => ?_, fun t _ j => ?_⟩
    · simp [HMM.withData, hM]
    · simp [HMM.withData, hM]
    · rw [List.getElem?_cons_succ, List.getElem?_ofFn] at hu
      split_ifs at hu with h
      cases hu
      refine ⟨trivial, ?_⟩
      simp only [HMM.withData, he, h, dite_true]
      exact Real.exp_log (hlp j _)
    · exact sum_pos (fun j _ => mul_pos (htr t i j) (hlik t j)) univ_nonempty
    · exact sum_pos (fun i _ => mul_pos (hfj t i) (htr t i j)) univ_nonempty

end Cuthbert.Discrete
