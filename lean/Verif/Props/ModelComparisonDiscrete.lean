import Verif.Lemmas.Ville
import Verif.Props.CalibrationDiscrete

/-!
# Property C134 for discrete models
-/

namespace Cuthbert.Spec.HMM
open Finset Compare

variable {X O : Type} [Fintype X] [DecidableEq X]

/-- Later data do not matter. -/
theorem withData_filterJoint (M : HMM X) (emit : ℕ → X → O → ℝ) {T : ℕ} (y : Fin T → O) :
    ∀ (t : ℕ) (h : t ≤ T) (k : X), (M.withData emit y).filterJoint t k = (M.withData emit (short t h y)).filterJoint t k := by
  have key : ∀ (t : ℕ) (h : t ≤ T) (s : ℕ) (_ : s ≤ t) (k : X),
      (M.withData emit y).filterJoint s k = (M.withData emit (short t h y)).filterJoint s k := by
    intro t h s
    induction s with
    | zero => intro _ k; rw [filterJoint_zero, filterJoint_zero]; rfl
    | succ s ih =>
      intro hs k
      rw [filterJoint_succ, filterJoint_succ]
      refine sum_congr rfl fun j _ => ?_
      rw [ih (by omega)]
      congr 1
      have h1 : s < T := by omega
      have h2 : s < t := by omega
      simp [stepMat, withData, short, h1, h2]
  exact fun t h => key t h t le_rfl

omit [DecidableEq X] in
theorem withData_evidence (M : HMM X) (emit : ℕ → X → O → ℝ) {T : ℕ} (y : Fin T → O) (t : ℕ) (h : t ≤ T) :
    (M.withData emit y).evidence t = (M.withData emit (short t h y)).evidence t := by
  classical
  rw [evidence_eq_sum, evidence_eq_sum]
  exact sum_congr rfl fun k _ => withData_filterJoint M emit y t h k

omit [DecidableEq X] in
/-- Averaging over the last observation removes it. -/
theorem sum_last_evidence [Fintype O] (M : HMM X) (emit : ℕ → X → O → ℝ) (hsum : ∀ t j, ∑ o, emit t j o = 1)
    (htrans : ∀ t i, ∑ j, M.trans t i j = 1) {T : ℕ} (y : Fin T → O) :
    ∑ o, (M.withData emit (Fin.snoc y o : Fin (T + 1) → O)).evidence (T + 1) = (M.withData emit y).evidence T := by
  classical
  simp only [evidence_eq_sum, filterJoint_succ]
  have e1 : ∀ o j, (M.withData emit (Fin.snoc y o : Fin (T + 1) → O)).filterJoint T j = (M.withData emit y).filterJoint T j := by
    intro o j
    rw [withData_filterJoint M emit _ T (Nat.le_succ T)]
    congr 2
    funext i
    exact Fin.snoc_castSucc (α := fun _ => O) o y i
  have e2 : ∀ o j k, (M.withData emit (Fin.snoc y o : Fin (T + 1) → O)).stepMat T j k = M.trans T j k * emit T k o := by
    intro o j k
    have : (Fin.snoc y o : Fin (T + 1) → O) ⟨T, Nat.lt_succ_self T⟩ = o := Fin.snoc_last (α := fun _ => O) o y
    simp [stepMat, withData, this]
  simp only [e1, e2]
  rw [sum_comm]
  calc ∑ k, ∑ o, ∑ j, (M.withData emit y).filterJoint T j * (M.trans T j k * emit T k o)
      = ∑ k, ∑ j, (M.withData emit y).filterJoint T j * M.trans T j k := by
        refine sum_congr rfl fun k _ => ?_
        rw [sum_comm]
        refine sum_congr rfl fun j _ => ?_
        simp only [← mul_assoc]
        rw [← mul_sum, hsum, mul_one]
    _ = _ := by
        rw [sum_comm]
        refine sum_congr rfl fun j _ => ?_
        rw [← mul_sum, htrans, mul_one]

omit [DecidableEq X] in
/-- The law of the first observations. -/
theorem sum_prefix [Fintype O] (M : HMM X) (emit : ℕ → X → O → ℝ) (hsum : ∀ t j, ∑ o, emit t j o = 1)
    (htrans : ∀ t i, ∑ j, M.trans t i j = 1) (t : ℕ) (f : (Fin t → O) → ℝ) :
    ∀ (T : ℕ) (h : t ≤ T), ∑ y : Fin T → O, (M.withData emit y).evidence T * f (short t h y) =
      ∑ z : Fin t → O, (M.withData emit z).evidence t * f z := by
  intro T h
  induction T, h using Nat.le_induction with
  | base => rfl
  | succ T h ih =>
    rw [← ih, ← (Fin.snocEquiv fun _ : Fin (T + 1) => O).sum_comp, Fintype.sum_prod_type, sum_comm]
    refine sum_congr rfl fun y _ => ?_
    have e : ∀ o, short t (h.trans (Nat.le_succ T)) (Fin.snoc y o : Fin (T + 1) → O) = short t h y := by
      intro o
      funext i
      exact Fin.snoc_castSucc (α := fun _ => O) o y (Fin.castLE h i)
    have e' : ∀ o, (Fin.snocEquiv fun _ : Fin (T + 1) => O) (o, y) = (Fin.snoc y o : Fin (T + 1) → O) := fun o => rfl
    simp only [e', e]
    rw [← sum_mul, sum_last_evidence M emit hsum htrans]

end Cuthbert.Spec.HMM

namespace Cuthbert.Discrete
open Cuthbert Fl Spec Finset Compare MeasureTheory
open scoped ENNReal

variable {n n' : ℕ} {Inp Inp' K O : Type} [Fintype O] {M : HMM (Fin (n + 1))} {M' : HMM (Fin (n' + 1))}
  {getInit : Inp → Fin (n + 1) → Fl} {getTrans : Inp → Fin (n + 1) → Fin (n + 1) → Fl} {getObs : Inp → Fin (n + 1) → Fl}
  {getInit' : Inp' → Fin (n' + 1) → Fl} {getTrans' : Inp' → Fin (n' + 1) → Fin (n' + 1) → Fl}
  {getObs' : Inp' → Fin (n' + 1) → Fl}

noncomputable section

omit [Fintype O] in
/-- What the filter reports on the data `y`. -/
theorem filter_evidence (hV : Valid M) (emit : ℕ → Fin (n + 1) → O → ℝ) {T : ℕ} (inputs : (Fin T → O) → List Inp)
    (hlen : ∀ y, (inputs y).length = T + 1) (hR : ∀ y, Represents (M.withData emit y) getInit getTrans getObs (inputs y))
    (hpos : ∀ y : Fin T → O, RowsPositive (M.withData emit y) T) (rng : Prng K) (key : Option K) (parallel : Bool)
    (y : Fin T → O) :
    ∃ states, (filter rng (buildFilter (K := K) getInit getTrans getObs) (inputs y) parallel key).result = .ok states ∧
      ∀ t ≤ T, ∃ s, states[t]? = some s ∧ s.logNormalizingConstant = fin (Real.log ((M.withData emit y).evidence t)) ∧
        0 < (M.withData emit y).evidence t := by
  have hne : inputs y ≠ [] := fun h => by have := hlen y; rw [h] at this; simp at this
  obtain ⟨states, h1, h2, h3⟩ := discrete_filter_exact (hR y) (hV.withData emit y) hne
    (by rw [hlen y]; exact hpos y) rng key parallel
  refine ⟨states, h1, fun t ht => ?_⟩
  have hl : t < states.length := by rw [h2, hlen]; omega
  obtain ⟨-, g2, g3, -⟩ := h3 t states[t] (List.getElem?_eq_getElem hl)
  exact ⟨states[t], List.getElem?_eq_getElem hl, g3, g2⟩

omit [Fintype O] in
theorem prefix_evidence_pos [Nonempty O] (emit : ℕ → Fin (n + 1) → O → ℝ) {T : ℕ}
    (hpos : ∀ y : Fin T → O, ∀ t ≤ T, 0 < (M.withData emit y).evidence t) (t : ℕ) (ht : t ≤ T) (z : Fin t → O) :
    0 < (M.withData emit z).evidence t := by
  obtain ⟨o⟩ := ‹Nonempty O›
  obtain ⟨y, hy⟩ : ∃ y : Fin T → O, y = fun i : Fin T => if h : (i : ℕ) < t then z ⟨i, h⟩ else o := ⟨_, rfl⟩
  have e : short t ht y = z := by funext i; rw [hy]; simp [short]
  have := hpos y t ht
  rwa [HMM.withData_evidence M emit y t ht, e] at this

/-- The law of the data. -/
def dataLaw [MeasurableSpace O] (M : HMM (Fin (n + 1))) (emit : ℕ → Fin (n + 1) → O → ℝ) (T : ℕ) : Measure (Fin T → O) :=
  Measure.count.withDensity fun y => ENNReal.ofReal ((M.withData emit y).evidence T)

theorem dataLaw_apply [MeasurableSpace O] [MeasurableSingletonClass O] (emit : ℕ → Fin (n + 1) → O → ℝ) {T : ℕ}
    (hpos : ∀ y : Fin T → O, 0 < (M.withData emit y).evidence T) (p : (Fin T → O) → Prop) [DecidablePred p] :
    dataLaw M emit T {y | p y} = ENNReal.ofReal (∑ y with p y, (M.withData emit y).evidence T) := by
  rw [dataLaw, withDensity_apply _ (MeasurableSet.of_discrete), ← lintegral_indicator MeasurableSet.of_discrete,
    lintegral_count, tsum_fintype, sum_filter, ENNReal.ofReal_sum_of_nonneg fun y _ => by
      split_ifs
      · exact (hpos y).le
      · exact le_rfl]
  refine sum_congr rfl fun y _ => ?_
  by_cases h : p y <;> simp [h]

theorem dataLaw_densities [MeasurableSpace O] [MeasurableSingletonClass O] [Nonempty O] (hV : Valid M)
    (emit : ℕ → Fin (n + 1) → O → ℝ) (hsum : ∀ t j, ∑ o, emit t j o = 1) {T : ℕ}
    (hpos : ∀ y : Fin T → O, ∀ t ≤ T, 0 < (M.withData emit y).evidence t) :
    HasDensities (dataLaw M emit T) (fun _ => Measure.count) fun t z => Real.log ((M.withData emit z).evidence t) := by
  classical
  intro t ψ _
  have ht : (t : ℕ) ≤ T := Nat.le_of_lt_succ t.2
  have hp := prefix_evidence_pos (M := M) emit hpos
  rw [dataLaw, lintegral_withDensity_eq_lintegral_mul _ (Measurable.of_discrete) (Measurable.of_discrete), lintegral_count,
    lintegral_count, tsum_fintype, tsum_fintype]
  simp only [Pi.mul_apply]
  rw [← sum_fiberwise_of_maps_to (g := fun y => short t.1 ht y) (t := univ) fun _ _ => mem_univ _]
  refine sum_congr rfl fun z _ => ?_
  have h1 := HMM.sum_prefix M emit hsum hV.trans_sum t.1 (fun z' => if z' = z then 1 else 0) T ht
  simp only [mul_ite, mul_one, mul_zero, sum_ite_eq', mem_univ, if_true] at h1
  rw [← sum_filter] at h1
  rw [Real.exp_log (hp t.1 ht z), ← h1, ENNReal.ofReal_sum_of_nonneg fun y _ => (hpos y T le_rfl).le, sum_mul]
  refine sum_congr rfl fun y hy => ?_
  rw [← (mem_filter.1 hy).2]
  rfl

/-- **C134** (discrete filter). Draw `T` observations from a hidden Markov model `A` and run the filter on them with `A` and
with another model `B`, whose states may be others. Let `a t` and `b t` be the log normalising constants at time `t`. The
probability of the data `y` is `(M.withData emit y).evidence T`.
* The probability that at any time `t ≤ T` the wrong model is ahead by `c` or more is at most `exp(-c)`.
* At every time the right model is on average ahead, strictly so unless the two always agree. -/
theorem discrete_model_comparison (hV : Valid M) (hV' : Valid M') (emit : ℕ → Fin (n + 1) → O → ℝ)
    (emit' : ℕ → Fin (n' + 1) → O → ℝ) (hsum : ∀ t j, ∑ o, emit t j o = 1) (hsum' : ∀ t j, ∑ o, emit' t j o = 1) {T : ℕ}
    (inputs : (Fin T → O) → List Inp) (inputs' : (Fin T → O) → List Inp') (hlen : ∀ y, (inputs y).length = T + 1)
    (hlen' : ∀ y, (inputs' y).length = T + 1)
    (hR : ∀ y, Represents (M.withData emit y) getInit getTrans getObs (inputs y))
    (hR' : ∀ y, Represents (M'.withData emit' y) getInit' getTrans' getObs' (inputs' y))
    (hpos : ∀ y : Fin T → O, RowsPositive (M.withData emit y) T) (hpos' : ∀ y : Fin T → O, RowsPositive (M'.withData emit' y) T)
    (rng : Prng K) (key key' : Option K) (parallel parallel' : Bool) :
    ∃ a b : ℕ → (Fin T → O) → ℝ,
      (∀ y, ∃ states, (filter rng (buildFilter (K := K) getInit getTrans getObs) (inputs y) parallel key).result = .ok states ∧
        ∀ t ≤ T, ∃ s, states[t]? = some s ∧ s.logNormalizingConstant = fin (a t y)) ∧
      (∀ y, ∃ states, (filter rng (buildFilter (K := K) getInit' getTrans' getObs') (inputs' y) parallel' key').result =
        .ok states ∧ ∀ t ≤ T, ∃ s, states[t]? = some s ∧ s.logNormalizingConstant = fin (b t y)) ∧
      (∀ (c : ℝ) (S : Finset (Fin T → O)), (∀ y ∈ S, ∃ t ≤ T, c ≤ b t y - a t y) →
        ∑ y ∈ S, (M.withData emit y).evidence T ≤ Real.exp (-c)) ∧
      ∀ t ≤ T, 0 ≤ ∑ y, (M.withData emit y).evidence T * (a t y - b t y) ∧
        ((∃ y, a t y ≠ b t y) → 0 < ∑ y, (M.withData emit y).evidence T * (a t y - b t y)) := by
  classical
  have hO : Nonempty O := by
    by_contra h
    rw [not_nonempty_iff] at h
    have := hsum 0 0
    simp at this
  have hA := filter_evidence hV emit inputs hlen hR hpos rng key parallel
  have hB := filter_evidence hV' emit' inputs' hlen' hR' hpos' rng key' parallel'
  have pA : ∀ y : Fin T → O, ∀ t ≤ T, 0 < (M.withData emit y).evidence t := fun y t ht => by
    obtain ⟨_, _, h⟩ := hA y
    exact (h t ht).choose_spec.2.2
  have pB : ∀ y : Fin T → O, ∀ t ≤ T, 0 < (M'.withData emit' y).evidence t := fun y t ht => by
    obtain ⟨_, _, h⟩ := hB y
    exact (h t ht).choose_spec.2.2
  have tot : ∀ (k : ℕ) (N : HMM (Fin (k + 1))) (em : ℕ → Fin (k + 1) → O → ℝ), Valid N → (∀ t j, ∑ o, em t j o = 1) →
      ∑ y : Fin T → O, (N.withData em y).evidence T = 1 := fun k N em hN h => by
    rw [HMM.sum_data_evidence N em h, HMM.noData_evidence N hN.init_sum hN.trans_sum]
  refine ⟨fun t y => Real.log ((M.withData emit y).evidence t), fun t y => Real.log ((M'.withData emit' y).evidence t),
    fun y => ?_, fun y => ?_, fun c S hS => ?_, fun t ht => ?_⟩
  · obtain ⟨states, h1, h2⟩ := hA y
    exact ⟨states, h1, fun t ht => let ⟨s, h3, h4, _⟩ := h2 t ht; ⟨s, h3, h4⟩⟩
  · obtain ⟨states, h1, h2⟩ := hB y
    exact ⟨states, h1, fun t ht => let ⟨s, h3, h4, _⟩ := h2 t ht; ⟨s, h3, h4⟩⟩
  · let _ : MeasurableSpace O := ⊤
    have _ : IsProbabilityMeasure (dataLaw M' emit' T) := ⟨by
      have := dataLaw_apply (M := M') emit' (fun y => pB y T le_rfl) fun _ => True
      simp only [Set.ofPred_true, filter_true, tot n' M' emit' hV' hsum', ENNReal.ofReal_one] at this
      exact this⟩
    have hv := ville (dataLaw_densities hV emit hsum pA) (dataLaw_densities hV' emit' hsum' pB)
      (fun _ => Measurable.of_discrete) (fun _ => Measurable.of_discrete) c
    have h1 := dataLaw_apply (M := M) emit (fun y => pA y T le_rfl) fun y => y ∈ S
    rw [filter_mem_eq_inter, univ_inter] at h1
    have h2 : ENNReal.ofReal (∑ y ∈ S, (M.withData emit y).evidence T) ≤ ENNReal.ofReal (Real.exp (-c)) := by
      rw [← h1]
      refine (measure_mono ?_).trans hv
      intro y hy
      obtain ⟨t, ht, h⟩ := hS y hy
      refine ⟨⟨t, Nat.lt_succ_of_le ht⟩, ?_⟩
      dsimp only at h
      rw [HMM.withData_evidence M emit y t ht, HMM.withData_evidence M' emit' y t ht] at h
      exact h
    exact (ENNReal.ofReal_le_ofReal_iff (Real.exp_nonneg _)).1 h2
  · -- the mean of the ratio is one
    have hr : ∑ y : Fin T → O, (M.withData emit y).evidence T *
        ((M'.withData emit' y).evidence t / (M.withData emit y).evidence t) = 1 := by
      have h1 := HMM.sum_prefix M emit hsum hV.trans_sum t
        (fun z => (M'.withData emit' z).evidence t / (M.withData emit z).evidence t) T ht
      have h2 := HMM.sum_prefix M' emit' hsum' hV'.trans_sum t (fun _ => 1) T ht
      simp only [mul_one] at h2
      rw [tot n' M' emit' hV' hsum'] at h2
      rw [h2]
      have e : ∀ y : Fin T → O, (M'.withData emit' y).evidence t / (M.withData emit y).evidence t =
          (M'.withData emit' (short t ht y)).evidence t / (M.withData emit (short t ht y)).evidence t := fun y => by
        rw [HMM.withData_evidence M emit y t ht, HMM.withData_evidence M' emit' y t ht]
      simp only [e]
      rw [h1]
      refine sum_congr rfl fun z _ => ?_
      rw [mul_div_cancel₀ _ (prefix_evidence_pos (M := M) emit pA t ht z).ne']
    have key : ∀ y : Fin T → O, 1 - (M'.withData emit' y).evidence t / (M.withData emit y).evidence t ≤
        Real.log ((M.withData emit y).evidence t) - Real.log ((M'.withData emit' y).evidence t) := fun y => by
      rw [← neg_sub (Real.log ((M'.withData emit' y).evidence t)), ← Real.log_div (pB y t ht).ne' (pA y t ht).ne']
      have := Real.log_le_sub_one_of_pos (div_pos (pB y t ht) (pA y t ht))
      linarith
    have hzero : ∑ y : Fin T → O, (M.withData emit y).evidence T *
        (1 - (M'.withData emit' y).evidence t / (M.withData emit y).evidence t) = 0 := by
      simp only [mul_sub, mul_one]
      rw [sum_sub_distrib, hr, tot n M emit hV hsum, sub_self]
    refine ⟨?_, fun ⟨y, hy⟩ => ?_⟩
    · rw [← hzero]
      exact sum_le_sum fun y _ => mul_le_mul_of_nonneg_left (key y) (pA y T le_rfl).le
    · rw [← hzero]
      refine sum_lt_sum (fun y _ => mul_le_mul_of_nonneg_left (key y) (pA y T le_rfl).le) ⟨y, mem_univ _, ?_⟩
      refine mul_lt_mul_of_pos_left ?_ (pA y T le_rfl)
      dsimp only
      rw [← neg_sub (Real.log ((M'.withData emit' y).evidence t)), ← Real.log_div (pB y t ht).ne' (pA y t ht).ne']
      have h1 : (M'.withData emit' y).evidence t / (M.withData emit y).evidence t ≠ 1 := fun h => by
        rw [div_eq_one_iff_eq (pA y t ht).ne'] at h
        exact hy (congrArg Real.log h).symm
      have := Real.log_lt_sub_one_of_pos (div_pos (pB y t ht) (pA y t ht)) h1
      linarith

/-- A symmetric two-state model whose observations equal the state with probability `q`. -/
def noisyCopy (q : ℝ) (_ : ℕ) (j o : Fin 2) : ℝ := if o = j then q else 1 - q

/-- Non-vacuity: two-state models with different error probabilities meet the hypotheses, with the observations as inputs. -/
theorem exists_comparable : ∃ M : HMM (Fin (1 + 1)), Valid M ∧ ∀ q : ℝ, 0 < q → q < 1 →
    (∀ t j, ∑ o, noisyCopy q t j o = 1) ∧
    ∃ (getInit : Option (Fin 2) → Fin (1 + 1) → Fl) (getTrans : Option (Fin 2) → Fin (1 + 1) → Fin (1 + 1) → Fl)
      (getObs : Option (Fin 2) → Fin (1 + 1) → Fl), ∀ (T : ℕ) (y : Fin T → Fin 2),
      Represents (M.withData (noisyCopy q) y) getInit getTrans getObs (none :: List.ofFn fun t => some (y t)) ∧
      RowsPositive (M.withData (noisyCopy q) y) T := by
  have htp : ∀ (i j : Fin 2), (0 : ℝ) < if i = j then 2 / 3 else 1 / 3 := fun j o => by split_ifs <;> norm_num
  obtain ⟨M, hM⟩ : ∃ M : HMM (Fin (1 + 1)), M = ⟨fun _ => 1 / 2, fun _ i j => if i = j then 2 / 3 else 1 / 3,
    fun _ _ => 1⟩ := ⟨_, rfl⟩
  refine ⟨M, ⟨?_, ?_, ?_, ?_⟩, fun q h0 h1 => ⟨?_, fun _ _ => fin (1 / 2), fun _ i j => fin (if i = j then 2 / 3 else 1 / 3),
    fun u j => u.elim nan fun o => fin (Real.log (noisyCopy q 0 j o)), fun T y => ?_⟩⟩
  · intro j; rw [hM]; norm_num
  · rw [hM]; simp
  · intro t i j; rw [hM]; exact (htp i j).le
  · intro t i; rw [hM]; fin_cases i <;> norm_num [Fin.sum_univ_succ]
  · intro t j; fin_cases j <;> simp [Fin.sum_univ_two, noisyCopy]
  · have hlp : ∀ (t : ℕ) (j o : Fin 2), 0 < noisyCopy q t j o := fun t j o => by
      unfold noisyCopy; split_ifs <;> linarith
    have hlik : ∀ t j, 0 < (M.withData (noisyCopy q) y).lik t j := by
      intro t j
      simp only [HMM.withData]
      split_ifs
      · exact hlp _ _ _
      · norm_num
    have htr : ∀ t i j, 0 < (M.withData (noisyCopy q) y).trans t i j := by
      intro t i j; simp only [HMM.withData, hM]; exact htp i j
    refine ⟨⟨fun u _ j => ?_, fun t u _ i j => ?_, fun t u hu j => ?_⟩, fun t _ i => ?_⟩
    · simp [HMM.withData, hM]
    · simp [HMM.withData, hM]
    · rw [List.getElem?_cons_succ, List.getElem?_ofFn] at hu
      split_ifs at hu with h
      cases hu
      refine ⟨trivial, ?_⟩
      simp only [HMM.withData, h, dite_true]
      exact Real.exp_log (hlp 0 j _)
    · exact sum_pos (fun j _ => mul_pos (htr t i j) (hlik t j)) univ_nonempty

end

end Cuthbert.Discrete
