import Verif.Props.Discrete

/-!
# Property C135: mixtures of discrete models

One run of the filter on a mixture of models does the same as separate runs whose results are weighted by their evidences.
-/

namespace Cuthbert.Spec.HMM
open Finset

variable {X J : Type*} [Fintype X] [DecidableEq X] [Fintype J]

/-- The model with another initial law. -/
def startedAt (M : HMM X) (q : X → ℝ) : HMM X := ⟨q, M.trans, M.lik⟩

theorem filterJoint_mixture (M : HMM X) (p : J → ℝ) (q : J → X → ℝ) (hM : ∀ k, M.init k = ∑ j, p j * q j k) :
    ∀ t k, M.filterJoint t k = ∑ j, p j * (M.startedAt (q j)).filterJoint t k
  | 0, k => by simp only [filterJoint_zero, hM, startedAt]
  | t + 1, k => by
    simp only [filterJoint_succ, filterJoint_mixture M p q hM t, sum_mul, mul_sum]
    rw [sum_comm]
    refine sum_congr rfl fun j _ => sum_congr rfl fun i _ => ?_
    rw [mul_assoc]
    rfl

omit [DecidableEq X] in
theorem evidence_mixture (M : HMM X) (p : J → ℝ) (q : J → X → ℝ) (hM : ∀ k, M.init k = ∑ j, p j * q j k) (t : ℕ) :
    M.evidence t = ∑ j, p j * (M.startedAt (q j)).evidence t := by
  classical
  simp only [evidence_eq_sum, filterJoint_mixture M p q hM t, mul_sum]
  exact sum_comm

omit [Fintype J] in
/-- A chain that cannot leave its class stays there. -/
theorem filterJoint_outside (M : HMM X) (cls : X → J) (hcls : ∀ t i k, cls i ≠ cls k → M.trans t i k = 0) (j : J)
    (hinit : ∀ k, cls k ≠ j → M.init k = 0) : ∀ t k, cls k ≠ j → M.filterJoint t k = 0
  | 0, k, hk => by rw [filterJoint_zero, hinit k hk]
  | t + 1, k, hk => by
    rw [filterJoint_succ]
    refine sum_eq_zero fun i _ => ?_
    by_cases hi : cls i = j
    · rw [stepMat, hcls t i k (by rw [hi]; exact hk.symm), zero_mul, mul_zero]
    · rw [filterJoint_outside M cls hcls j hinit t i hi, zero_mul]

end Cuthbert.Spec.HMM

namespace Cuthbert.Discrete
open Cuthbert Fl Spec Finset

variable {n : ℕ} {Inp K J : Type*} [Fintype J] {M : HMM (Fin (n + 1))}
  {getInit : Inp → Fin (n + 1) → Fl} {getInitJ : J → Inp → Fin (n + 1) → Fl}
  {getTrans : Inp → Fin (n + 1) → Fin (n + 1) → Fl} {getObs : Inp → Fin (n + 1) → Fl} {inputs : List Inp}

/-- **C135.** Let the initial distribution be a mixture of distributions `q j` with weights `p j`. Run the filter once from the
mixture, and once from every `q j`; let `l j` be the log normalising constants of the latter at time `t` and `d j` their
distributions. The log normalising constant of the former is `log ∑ p j exp(l j)`, and its distribution is the mixture of the
`d j` with weights proportional to `p j exp(l j)`. -/
theorem discrete_filter_mixture (p : J → ℝ) (q : J → Fin (n + 1) → ℝ) (hp : ∀ j, 0 ≤ p j) (hp1 : ∑ j, p j = 1)
    (hM : ∀ k, M.init k = ∑ j, p j * q j k) (hV : ∀ j, Valid (M.startedAt (q j)))
    (hR : Represents M getInit getTrans getObs inputs)
    (hRJ : ∀ j, Represents (M.startedAt (q j)) (getInitJ j) getTrans getObs inputs) (hne : inputs ≠ [])
    (hpos : RowsPositive M (inputs.length - 1)) (rng : Prng K) (key : Option K) (parallel : Bool) :
    ∃ (states : List (FilterState n Inp)) (statesJ : J → List (FilterState n Inp)),
      (filter rng (buildFilter (K := K) getInit getTrans getObs) inputs parallel key).result = .ok states ∧
      (∀ j, (filter rng (buildFilter (K := K) (getInitJ j) getTrans getObs) inputs parallel key).result = .ok (statesJ j)) ∧
      ∀ t < inputs.length, ∃ (s : FilterState n Inp) (sJ : J → FilterState n Inp) (l : J → ℝ) (d : J → Fin (n + 1) → ℝ), states[t]? = some s ∧
        (∀ j, (statesJ j)[t]? = some (sJ j) ∧ (sJ j).logNormalizingConstant = fin (l j) ∧ ∀ k, (sJ j).dist k = fin (d j k)) ∧
        s.logNormalizingConstant = fin (Real.log (∑ j, p j * Real.exp (l j))) ∧
        (∀ k, s.dist k = fin (∑ j, p j * Real.exp (l j) / (∑ i, p i * Real.exp (l i)) * d j k)) ∧
        ∀ cls : Fin (n + 1) → J, (∀ t i k, cls i ≠ cls k → M.trans t i k = 0) → (∀ j k, cls k ≠ j → q j k = 0) →
          ∀ j k, cls k ≠ j → d j k = 0 := by
  have hVM : Valid M := by
    refine ⟨fun k => ?_, ?_, ?_, ?_⟩
    · rw [hM]; exact sum_nonneg fun j _ => mul_nonneg (hp j) ((hV j).init_nonneg k)
    · simp only [hM]
      rw [sum_comm]
      simp only [← mul_sum]
      rw [← hp1]
      exact sum_congr rfl fun j _ => by rw [show ∑ k, q j k = 1 from (hV j).init_sum, mul_one]
    · obtain ⟨j⟩ : Nonempty J := by
        by_contra h; rw [not_nonempty_iff] at h; simp at hp1
      exact (hV j).trans_nonneg
    · obtain ⟨j⟩ : Nonempty J := by
        by_contra h; rw [not_nonempty_iff] at h; simp at hp1
      exact (hV j).trans_sum
  obtain ⟨states, h1, h2, h3⟩ := discrete_filter_exact hR hVM hne hpos rng key parallel
  have hJ := fun j => discrete_filter_exact (hRJ j) (hV j) hne hpos rng key parallel
  choose statesJ g1 g2 g3 using hJ
  refine ⟨states, statesJ, h1, g1, fun t ht => ?_⟩
  have hl : t < states.length := by rw [h2]; exact ht
  have hlJ : ∀ j, t < (statesJ j).length := fun j => by rw [g2]; exact ht
  obtain ⟨k1, k2, k3, -⟩ := h3 t states[t] (List.getElem?_eq_getElem hl)
  have kJ := fun j => g3 j t ((statesJ j)[t]'(hlJ j)) (List.getElem?_eq_getElem (hlJ j))
  have hexp : ∀ j, Real.exp (Real.log ((M.startedAt (q j)).evidence t)) = (M.startedAt (q j)).evidence t :=
    fun j => Real.exp_log (kJ j).2.1
  refine ⟨states[t], fun j => (statesJ j)[t]'(hlJ j), fun j => Real.log ((M.startedAt (q j)).evidence t),
    fun j => (M.startedAt (q j)).filterLaw t, List.getElem?_eq_getElem hl,
    fun j => ⟨List.getElem?_eq_getElem (hlJ j), (kJ j).2.2.1, (kJ j).1⟩, ?_, fun k => ?_, fun cls hcls hq j k hk => ?_⟩
  · simp only [hexp]
    rw [k3, HMM.evidence_mixture M p q hM]
  · simp only [hexp]
    rw [k1 k, HMM.filterLaw, HMM.filterJoint_mixture M p q hM, HMM.evidence_mixture M p q hM, sum_div]
    congr 1
    refine sum_congr rfl fun j _ => ?_
    rw [HMM.filterLaw]
    have := (kJ j).2.1.ne'
    field_simp
  · dsimp only
    rw [HMM.filterLaw, HMM.filterJoint_outside (M.startedAt (q j)) cls hcls j (hq j) t k hk, zero_div]

/-- **C135** (model probabilities). Let the states fall into classes that are never left, one for every candidate model, with
prior probabilities `p j`. Then one run of the filter returns at every time the posterior probabilities of the models, which
are the softmax of `log p j` plus the log normalising constants of separate runs, and within the class `j` the distribution
that the separate run with the model `j` returns. -/
theorem discrete_model_probabilities (cls : Fin (n + 1) → J) (hcls : ∀ t i k, cls i ≠ cls k → M.trans t i k = 0)
    (p : J → ℝ) (q : J → Fin (n + 1) → ℝ) (hq : ∀ j k, cls k ≠ j → q j k = 0) (hp : ∀ j, 0 ≤ p j) (hp1 : ∑ j, p j = 1)
    (hM : ∀ k, M.init k = ∑ j, p j * q j k) (hV : ∀ j, Valid (M.startedAt (q j)))
    (hR : Represents M getInit getTrans getObs inputs)
    (hRJ : ∀ j, Represents (M.startedAt (q j)) (getInitJ j) getTrans getObs inputs) (hne : inputs ≠ [])
    (hpos : RowsPositive M (inputs.length - 1)) (rng : Prng K) (key : Option K) (parallel : Bool) :
    ∃ (states : List (FilterState n Inp)) (statesJ : J → List (FilterState n Inp)),
      (filter rng (buildFilter (K := K) getInit getTrans getObs) inputs parallel key).result = .ok states ∧
      (∀ j, (filter rng (buildFilter (K := K) (getInitJ j) getTrans getObs) inputs parallel key).result = .ok (statesJ j)) ∧
      ∀ t < inputs.length, ∃ (s : FilterState n Inp) (sJ : J → FilterState n Inp) (l w : J → ℝ) (f : Fin (n + 1) → ℝ) (d : J → Fin (n + 1) → ℝ), states[t]? = some s ∧
        (∀ j, (statesJ j)[t]? = some (sJ j) ∧ (sJ j).logNormalizingConstant = fin (l j) ∧ ∀ k, (sJ j).dist k = fin (d j k)) ∧
        (∀ k, s.dist k = fin (f k)) ∧ (∀ j, w j = p j * Real.exp (l j) / ∑ i, p i * Real.exp (l i)) ∧
        (∀ k, f k = w (cls k) * d (cls k) k) ∧ ∀ j (S : Finset (Fin (n + 1))), (∀ k, k ∈ S ↔ cls k = j) → ∑ k ∈ S, f k = w j := by
  classical
  obtain ⟨states, statesJ, h1, h2, h3⟩ := discrete_filter_mixture p q hp hp1 hM hV hR hRJ hne hpos rng key parallel
  refine ⟨states, statesJ, h1, h2, fun t ht => ?_⟩
  obtain ⟨s, sJ, l, d, e1, e2, -, e4, e5⟩ := h3 t ht
  have hd := e5 cls hcls hq
  have hf : ∀ k, ∑ j, p j * Real.exp (l j) / (∑ i, p i * Real.exp (l i)) * d j k =
      p (cls k) * Real.exp (l (cls k)) / (∑ i, p i * Real.exp (l i)) * d (cls k) k := fun k =>
    sum_eq_single _ (fun j _ hj => by rw [hd j k hj.symm, mul_zero]) fun h => (h (mem_univ _)).elim
  have hd1 : ∀ j, ∑ k, d j k = 1 := fun j => by
    obtain ⟨states', g1, g2, g3⟩ := discrete_filter_exact (hRJ j) (hV j) hne hpos rng key parallel
    rw [h2 j, Except.ok.injEq] at g1
    subst g1
    obtain ⟨k1, k2, -⟩ := g3 t (sJ j) (e2 j).1
    have : ∀ k, d j k = (M.startedAt (q j)).filterLaw t k := fun k => by
      have := ((e2 j).2.2 k).symm.trans (k1 k)
      exact Fl.fin.inj this
    simp only [this, HMM.filterLaw]
    rw [← sum_div, ← HMM.evidence_eq_sum, div_self k2.ne']
  refine ⟨s, sJ, l, _, _, d, e1, e2, e4, fun j => rfl, hf, fun j S hS => ?_⟩
  have h4 : ∀ k ∈ S, ∑ i, p i * Real.exp (l i) / (∑ i, p i * Real.exp (l i)) * d i k =
      p j * Real.exp (l j) / (∑ i, p i * Real.exp (l i)) * d j k := fun k hk => by
    rw [hf k, (hS k).1 hk]
  rw [sum_congr rfl h4, ← mul_sum]
  have h5 : ∑ k ∈ S, d j k = 1 := by
    rw [← hd1 j]
    refine sum_subset (subset_univ _) fun k _ hk => hd j k fun h => hk ((hS k).2 h)
  rw [h5, mul_one]

/-- Two candidate models, a fair and a biased source of independent bits, meet the hypotheses of both theorems. -/
theorem exists_mixture (ys : List (Fin 2)) : ∃ (M : HMM (Fin (1 + 1))) (cls : Fin (1 + 1) → Fin 2) (p : Fin 2 → ℝ)
    (q : Fin 2 → Fin (1 + 1) → ℝ) (getInit : Option (Fin 2) → Fin (1 + 1) → Fl)
    (getInitJ : Fin 2 → Option (Fin 2) → Fin (1 + 1) → Fl) (getTrans : Option (Fin 2) → Fin (1 + 1) → Fin (1 + 1) → Fl)
    (getObs : Option (Fin 2) → Fin (1 + 1) → Fl) (inputs : List (Option (Fin 2))),
    (∀ t i k, cls i ≠ cls k → M.trans t i k = 0) ∧ (∀ j k, cls k ≠ j → q j k = 0) ∧ (∀ j, 0 < p j) ∧ ∑ j, p j = 1 ∧
    (∀ k, M.init k = ∑ j, p j * q j k) ∧ (∀ j, Valid (M.startedAt (q j))) ∧ Represents M getInit getTrans getObs inputs ∧
    (∀ j, Represents (M.startedAt (q j)) (getInitJ j) getTrans getObs inputs) ∧ inputs.length = ys.length + 1 ∧
    RowsPositive M (inputs.length - 1) := by
  obtain ⟨lk, hlk⟩ : ∃ lk : Fin 2 → Fin 2 → ℝ, lk = fun k o => if k = 0 then 1 / 2 else if o = 0 then 3 / 4 else 1 / 4 :=
    ⟨_, rfl⟩
  have hpos : ∀ k o, 0 < lk k o := fun k o => by rw [hlk]; dsimp only; split_ifs <;> norm_num
  obtain ⟨M, hM⟩ : ∃ M : HMM (Fin (1 + 1)), M = ⟨fun _ => 1 / 2, fun _ i k => if i = k then 1 else 0,
    fun t k => lk k (ys.getD t 0)⟩ := ⟨_, rfl⟩
  have hobs : ∀ t u, (none :: ys.map some)[t + 1]? = some u → ∀ k : Fin (1 + 1),
      ((u.elim nan fun o => fin (Real.log (lk k o)) : Fl).IsLog) ∧
        lik (u.elim nan fun o => fin (Real.log (lk k o)) : Fl) = M.lik t k := by
    intro t u hu k
    rw [List.getElem?_cons_succ, List.getElem?_map, Option.map_eq_some_iff] at hu
    obtain ⟨o, ho, rfl⟩ := hu
    refine ⟨trivial, ?_⟩
    rw [hM]
    simp only [Option.elim, Fl.lik, List.getD_eq_getElem?_getD, ho, Option.getD_some]
    exact Real.exp_log (hpos k o)
  refine ⟨M, id, fun _ => 1 / 2, fun j k => if j = k then 1 else 0, fun _ _ => fin (1 / 2),
    fun j _ k => fin (if j = k then 1 else 0), fun _ i k => fin (if i = k then 1 else 0),
    fun u k => u.elim nan fun o => fin (Real.log (lk k o)), none :: ys.map some, ?_, ?_, ?_, ?_, ?_, ?_, ⟨?_, ?_, hobs⟩, ?_, ?_, ?_⟩
  · intro t i k h; rw [hM]; exact if_neg h
  · intro j k h; exact if_neg (fun e => h e.symm)
  · intro j; norm_num
  · simp
  · intro k; rw [hM]; fin_cases k <;> simp
  · intro j
    refine ⟨fun k => ?_, ?_, fun t i k => ?_, fun t i => ?_⟩
    · simp only [HMM.startedAt]; split_ifs <;> norm_num
    · simp [HMM.startedAt]
    · simp only [HMM.startedAt, hM]; split_ifs <;> norm_num
    · simp [HMM.startedAt, hM]
  · intro u _ k; rw [hM]
  · intro t u _ i k; rw [hM]
  · intro j
    exact ⟨fun u _ k => rfl, fun t u _ i k => by simp [HMM.startedAt, hM], hobs⟩
  · simp
  · intro t _ i
    refine sum_pos' (fun k _ => ?_) ⟨i, mem_univ _, ?_⟩
    · rw [hM]
      dsimp only
      exact mul_nonneg (by split_ifs <;> norm_num) (hpos _ _).le
    · rw [hM]
      simpa using hpos i _

end Cuthbert.Discrete
