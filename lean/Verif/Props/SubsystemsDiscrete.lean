import Verif.Props.Discrete
import Verif.Spec.Product

/-!
# Independent subsystems in the discrete filter and smoother (C104)
-/

namespace Cuthbert.Spec.HMM.Pair

variable {X X' Y : Type*} [Fintype X] [Fintype X'] [Fintype Y] [DecidableEq X] [DecidableEq X'] [DecidableEq Y]
  {e : X × X' ≃ Y} {M : HMM X} {M' : HMM X'} {J : HMM Y}

omit [DecidableEq X] [DecidableEq X'] [DecidableEq Y] in
theorem sum_pair (e : X × X' ≃ Y) (f : Y → ℝ) (g : X → ℝ) (g' : X' → ℝ) (h : ∀ i i', f (e (i, i')) = g i * g' i') :
    ∑ j, f j = (∑ i, g i) * ∑ i', g' i' := by
  rw [← e.sum_comp, Fintype.sum_prod_type, Finset.sum_mul_sum]
  simp only [h]

omit [Fintype X] [Fintype X'] [Fintype Y] [DecidableEq X] [DecidableEq X'] [DecidableEq Y] in
theorem stepMat (h : Pair e M M' J) (t : ℕ) (i j : X) (i' j' : X') :
    J.stepMat t (e (i, i')) (e (j, j')) = M.stepMat t i j * M'.stepMat t i' j' := by
  simp only [HMM.stepMat, h.trans, h.lik]
  ring

theorem filterJoint (h : Pair e M M' J) (t : ℕ) (j : X) (j' : X') :
    J.filterJoint t (e (j, j')) = M.filterJoint t j * M'.filterJoint t j' := by
  induction t generalizing j j' with
  | zero => simp only [filterJoint_zero, h.init]
  | succ t ih =>
    simp only [filterJoint_succ]
    refine sum_pair e _ _ _ fun i i' => ?_
    rw [ih, h.stepMat]
    ring

theorem evidence (h : Pair e M M' J) (t : ℕ) : J.evidence t = M.evidence t * M'.evidence t := by
  simp only [evidence_eq_sum]
  exact sum_pair e _ _ _ fun i i' => h.filterJoint t i i'

theorem future (h : Pair e M M' J) (t m : ℕ) (i : X) (i' : X') :
    J.future t m (e (i, i')) = M.future t m i * M'.future t m i' := by
  induction m generalizing t i i' with
  | zero => simp only [future_zero, mul_one]
  | succ m ih =>
    simp only [future_succ]
    refine sum_pair e _ _ _ fun j j' => ?_
    rw [ih, h.stepMat]
    ring

theorem smoothJoint (h : Pair e M M' J) (T : ℕ) (t : Fin (T + 1)) (j : X) (j' : X') :
    J.smoothJoint T t (e (j, j')) = M.smoothJoint T t j * M'.smoothJoint T t j' := by
  obtain ⟨t, ht⟩ := t
  obtain ⟨m, rfl⟩ : ∃ m, T = t + m := ⟨T - t, by omega⟩
  simp only [smoothJoint_eq, h.filterJoint, h.future]
  ring

theorem filterLaw (h : Pair e M M' J) (t : ℕ) (j : X) (j' : X') :
    J.filterLaw t (e (j, j')) = M.filterLaw t j * M'.filterLaw t j' := by
  simp only [HMM.filterLaw, h.filterJoint, h.evidence, mul_div_mul_comm]

theorem smoothLaw (h : Pair e M M' J) (T : ℕ) (t : Fin (T + 1)) (j : X) (j' : X') :
    J.smoothLaw T t (e (j, j')) = M.smoothLaw T t j * M'.smoothLaw T t j' := by
  simp only [HMM.smoothLaw, h.smoothJoint, h.evidence, mul_div_mul_comm]

end Cuthbert.Spec.HMM.Pair

namespace Cuthbert.Discrete
open Fl Spec Spec.HMM

variable {n n' k : ℕ} {Inp Inp' InpJ K K' KJ : Type*} {e : Fin (n + 1) × Fin (n' + 1) ≃ Fin (k + 1)}
  {M : HMM (Fin (n + 1))} {M' : HMM (Fin (n' + 1))} {J : HMM (Fin (k + 1))}
  {getInit : Inp → Fin (n + 1) → Fl} {getTrans : Inp → Fin (n + 1) → Fin (n + 1) → Fl}
  {getObs : Inp → Fin (n + 1) → Fl} {inputs : List Inp}
  {getInit' : Inp' → Fin (n' + 1) → Fl} {getTrans' : Inp' → Fin (n' + 1) → Fin (n' + 1) → Fl}
  {getObs' : Inp' → Fin (n' + 1) → Fl} {inputs' : List Inp'}
  {getInitJ : InpJ → Fin (k + 1) → Fl} {getTransJ : InpJ → Fin (k + 1) → Fin (k + 1) → Fl}
  {getObsJ : InpJ → Fin (k + 1) → Fl} {inputsJ : List InpJ}

theorem Valid.pair (hV : Valid M) (hV' : Valid M') (h : Pair e M M' J) : Valid J where
  init_nonneg j := by
    obtain ⟨⟨i, i'⟩, rfl⟩ := e.surjective j
    rw [h.init]; exact mul_nonneg (hV.init_nonneg i) (hV'.init_nonneg i')
  init_sum := by rw [Pair.sum_pair e _ _ _ h.init, hV.init_sum, hV'.init_sum, one_mul]
  trans_nonneg t i j := by
    obtain ⟨⟨i, i'⟩, rfl⟩ := e.surjective i
    obtain ⟨⟨j, j'⟩, rfl⟩ := e.surjective j
    rw [h.trans]; exact mul_nonneg (hV.trans_nonneg t i j) (hV'.trans_nonneg t i' j')
  trans_sum t i := by
    obtain ⟨⟨i, i'⟩, rfl⟩ := e.surjective i
    rw [Pair.sum_pair e _ _ _ fun j j' => h.trans t i i' j j', hV.trans_sum, hV'.trans_sum, one_mul]

theorem RowsPositive.pair {T : ℕ} (hp : RowsPositive M T) (hp' : RowsPositive M' T) (h : Pair e M M' J) :
    RowsPositive J T := by
  intro t ht i
  obtain ⟨⟨i, i'⟩, rfl⟩ := e.surjective i
  have := Pair.sum_pair e _ _ _ fun j j' => h.stepMat t i j i' j'
  exact (mul_pos (hp t ht i) (hp' t ht i')).trans_eq this.symm

theorem AllReachable.pair {T : ℕ} (hp : AllReachable M T) (hp' : AllReachable M' T) (h : Pair e M M' J) :
    AllReachable J T := by
  intro t ht j
  obtain ⟨⟨j, j'⟩, rfl⟩ := e.surjective j
  rw [Pair.sum_pair e _ (fun i => M.filterJoint t i * M.trans t i j) (fun i' => M'.filterJoint t i' * M'.trans t i' j')
    fun i i' => by rw [h.filterJoint, h.trans]; ring]
  exact mul_pos (hp t ht j) (hp' t ht j')

/-- **C104** (discrete filter). For two independent hidden Markov models run as one, on pairs of states, the filter
returns at each time the products of the probabilities that it returns for the two models and the sum of the log
normalising constants. -/
theorem filter_side_by_side (hR : Represents M getInit getTrans getObs inputs)
    (hR' : Represents M' getInit' getTrans' getObs' inputs') (hRJ : Represents J getInitJ getTransJ getObsJ inputsJ)
    (hV : Valid M) (hV' : Valid M') (h : Pair e M M' J) (T : ℕ) (hlen : inputs.length = T + 1)
    (hlen' : inputs'.length = T + 1) (hlenJ : inputsJ.length = T + 1) (hpos : RowsPositive M T) (hpos' : RowsPositive M' T)
    (rng : Prng K) (rng' : Prng K') (rngJ : Prng KJ) (key : Option K) (key' : Option K') (keyJ : Option KJ)
    (parallel parallel' parallelJ : Bool) :
    ∃ states states' statesJ,
      (filter rng (buildFilter (K := K) getInit getTrans getObs) inputs parallel key).result = .ok states ∧
      (filter rng' (buildFilter (K := K') getInit' getTrans' getObs') inputs' parallel' key').result = .ok states' ∧
      (filter rngJ (buildFilter (K := KJ) getInitJ getTransJ getObsJ) inputsJ parallelJ keyJ).result = .ok statesJ ∧
      states.length = T + 1 ∧ states'.length = T + 1 ∧ statesJ.length = T + 1 ∧
      ∀ (t : ℕ) s s' sJ, states[t]? = some s → states'[t]? = some s' → statesJ[t]? = some sJ →
        ∃ (p : Fin (n + 1) → ℝ) (p' : Fin (n' + 1) → ℝ) (l l' : ℝ),
          (∀ i, s.dist i = fin (p i)) ∧ (∀ i, s'.dist i = fin (p' i)) ∧
          s.logNormalizingConstant = fin l ∧ s'.logNormalizingConstant = fin l' ∧
          (∀ i i', sJ.dist (e (i, i')) = fin (p i * p' i')) ∧ sJ.logNormalizingConstant = fin (l + l') := by
  obtain ⟨states, a, hl, hall⟩ := discrete_filter_exact hR hV (by rintro rfl; simp at hlen) (by rw [hlen]; exact hpos)
    rng key parallel
  obtain ⟨states', a', hl', hall'⟩ := discrete_filter_exact hR' hV' (by rintro rfl; simp at hlen')
    (by rw [hlen']; exact hpos') rng' key' parallel'
  obtain ⟨statesJ, aJ, hlJ, hallJ⟩ := discrete_filter_exact hRJ (hV.pair hV' h) (by rintro rfl; simp at hlenJ)
    (by rw [hlenJ]; exact hpos.pair hpos' h) rngJ keyJ parallelJ
  refine ⟨states, states', statesJ, a, a', aJ, hl.trans hlen, hl'.trans hlen', hlJ.trans hlenJ, fun t s s' sJ h1 h2 h3 => ?_⟩
  obtain ⟨b1, b2, b3, -⟩ := hall t s h1
  obtain ⟨b1', b2', b3', -⟩ := hall' t s' h2
  obtain ⟨b1J, -, b3J, -⟩ := hallJ t sJ h3
  refine ⟨_, _, _, _, b1, b1', b3, b3', fun i i' => ?_, ?_⟩
  · rw [b1J, h.filterLaw]
  · rw [b3J, h.evidence, Real.log_mul b2.ne' b2'.ne']

/-- **C104** (discrete smoother). The same for the smoothing distributions. -/
theorem smoother_side_by_side (hR : Represents M getInit getTrans getObs inputs)
    (hR' : Represents M' getInit' getTrans' getObs' inputs') (hRJ : Represents J getInitJ getTransJ getObsJ inputsJ)
    (hV : Valid M) (hV' : Valid M') (h : Pair e M M' J) (T : ℕ) (hlen : inputs.length = T + 1)
    (hlen' : inputs'.length = T + 1) (hlenJ : inputsJ.length = T + 1) (hT : 1 ≤ T)
    (hpos : RowsPositive M T) (hpos' : RowsPositive M' T) (hreach : AllReachable M T) (hreach' : AllReachable M' T)
    (rng rngS : Prng K) (rng' rngS' : Prng K') (rngJ rngSJ : Prng KJ) (key keyS : Option K) (key' keyS' : Option K')
    (keyJ keySJ : Option KJ) (parallel parallel' parallelJ parallelS parallelS' parallelSJ : Bool) (dummy : Inp → Inp)
    (dummy' : Inp' → Inp') (dummyJ : InpJ → InpJ) (fs : List (FilterState n Inp)) (fs' : List (FilterState n' Inp'))
    (fsJ : List (FilterState k InpJ))
    (hfs : (filter rng (buildFilter (K := K) getInit getTrans getObs) inputs parallel key).result = .ok fs)
    (hfs' : (filter rng' (buildFilter (K := K') getInit' getTrans' getObs') inputs' parallel' key').result = .ok fs')
    (hfsJ : (filter rngJ (buildFilter (K := KJ) getInitJ getTransJ getObsJ) inputsJ parallelJ keyJ).result = .ok fsJ) :
    ∃ states states' statesJ, (smoother rngS FilterState.modelInputs (fun u => .ok (dummy u))
        (buildSmoother dummy getTrans) fs none parallelS keyS).result = .ok states ∧
      (smoother rngS' FilterState.modelInputs (fun u => .ok (dummy' u))
        (buildSmoother dummy' getTrans') fs' none parallelS' keyS').result = .ok states' ∧
      (smoother rngSJ FilterState.modelInputs (fun u => .ok (dummyJ u))
        (buildSmoother dummyJ getTransJ) fsJ none parallelSJ keySJ).result = .ok statesJ ∧
      states.length = T + 1 ∧ states'.length = T + 1 ∧ statesJ.length = T + 1 ∧
      ∀ (t : ℕ) s s' sJ, states[t]? = some s → states'[t]? = some s' → statesJ[t]? = some sJ →
        ∃ (p : Fin (n + 1) → ℝ) (p' : Fin (n' + 1) → ℝ),
          (∀ i, s.dist i = fin (p i)) ∧ (∀ i, s'.dist i = fin (p' i)) ∧
          ∀ i i', sJ.dist (e (i, i')) = fin (p i * p' i') := by
  obtain ⟨states, a, hl, hall⟩ := discrete_smoother_exact hR hV T hlen hT hpos hreach rng rngS key keyS parallel
    parallelS dummy fs hfs
  obtain ⟨states', a', hl', hall'⟩ := discrete_smoother_exact hR' hV' T hlen' hT hpos' hreach' rng' rngS' key' keyS'
    parallel' parallelS' dummy' fs' hfs'
  obtain ⟨statesJ, aJ, hlJ, hallJ⟩ := discrete_smoother_exact hRJ (hV.pair hV' h) T hlenJ hT (hpos.pair hpos' h)
    (hreach.pair hreach' h) rngJ rngSJ keyJ keySJ parallelJ parallelSJ dummyJ fsJ hfsJ
  refine ⟨states, states', statesJ, a, a', aJ, hl, hl', hlJ, fun t s s' sJ h1 h2 h3 => ?_⟩
  have ht : t < T + 1 := by
    rw [← hl]; by_contra hc; rw [List.getElem?_eq_none (by omega)] at h1; cases h1
  refine ⟨_, _, (hall t ht s h1).1, (hall' t ht s' h2).1, fun i i' => ?_⟩
  rw [(hallJ t ht sJ h3).1, h.smoothLaw]

/-- Non-vacuity: any two hidden Markov models can be run side by side. -/
theorem exists_side_by_side (M : HMM (Fin (n + 1))) (M' : HMM (Fin (n' + 1))) :
    ∃ (k : ℕ) (e : Fin (n + 1) × Fin (n' + 1) ≃ Fin (k + 1)) (J : HMM (Fin (k + 1))), Pair e M M' J := by
  let e : Fin (n + 1) × Fin (n' + 1) ≃ Fin (n * n' + n + n' + 1) := finProdFinEquiv.trans (finCongr (by ring))
  exact ⟨_, e, ⟨fun j => M.init (e.symm j).1 * M'.init (e.symm j).2,
    fun t i j => M.trans t (e.symm i).1 (e.symm j).1 * M'.trans t (e.symm i).2 (e.symm j).2,
    fun t j => M.lik t (e.symm j).1 * M'.lik t (e.symm j).2⟩, by simp, by simp, by simp⟩

end Cuthbert.Discrete
