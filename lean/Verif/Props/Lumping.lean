import Verif.Spec.Lumping
import Verif.Props.Discrete

/-!
# C81: merging and renaming states in the discrete filter and smoother
-/

namespace Cuthbert.Spec.Lumps

variable {X X' : Type*} [Fintype X] [Fintype X'] [DecidableEq X] [DecidableEq X'] {f : X → X'} {M : HMM X} {M' : HMM X'}

omit [DecidableEq X] in
/-- Summing over the classes. -/
theorem sum_classes (f : X → X') (g : X → ℝ) (h : X' → ℝ) :
    ∑ k, (∑ j with f j = k, g j) * h k = ∑ j, g j * h (f j) := by
  rw [← Finset.sum_fiberwise Finset.univ f]
  refine Finset.sum_congr rfl fun k _ => ?_
  rw [Finset.sum_mul]
  refine Finset.sum_congr rfl fun j hj => ?_
  rw [(Finset.mem_filter.1 hj).2]

omit [Fintype X'] [DecidableEq X] in
theorem sum_step (h : Lumps f M M') (t : ℕ) (i : X) (k : X') :
    M'.trans t (f i) k * M'.lik t k = ∑ j with f j = k, M.trans t i j * M.lik t j := by
  rw [h.trans, Finset.sum_mul]
  refine Finset.sum_congr rfl fun j hj => ?_
  rw [← h.lik, (Finset.mem_filter.1 hj).2]

theorem filterJoint (h : Lumps f M M') (t : ℕ) (k : X') :
    M'.filterJoint t k = ∑ j with f j = k, M.filterJoint t j := by
  induction t generalizing k with
  | zero => simp only [HMM.filterJoint_zero, h.init]
  | succ t ih =>
    simp only [HMM.filterJoint_succ, ih]
    rw [sum_classes, Finset.sum_comm]
    refine Finset.sum_congr rfl fun i _ => ?_
    rw [← Finset.mul_sum]
    exact congrArg _ (h.sum_step t i k)

theorem evidence (h : Lumps f M M') (t : ℕ) : M'.evidence t = M.evidence t := by
  rw [HMM.evidence_eq_sum, HMM.evidence_eq_sum, ← Finset.sum_fiberwise Finset.univ f]
  exact Finset.sum_congr rfl fun k _ => h.filterJoint t k

theorem future (h : Lumps f M M') (t m : ℕ) (i : X) : M'.future t m (f i) = M.future t m i := by
  induction m generalizing t i with
  | zero => rw [HMM.future_zero, HMM.future_zero]
  | succ m ih =>
    rw [HMM.future_succ, HMM.future_succ]
    simp only [← ih]
    rw [← sum_classes f (fun j => M.stepMat t i j) (fun k => M'.future (t + 1) m k)]
    exact Finset.sum_congr rfl fun k _ => congrArg (· * _) (h.sum_step t i k)

theorem smoothJoint (h : Lumps f M M') (T : ℕ) (t : Fin (T + 1)) (k : X') :
    M'.smoothJoint T t k = ∑ j with f j = k, M.smoothJoint T t j := by
  obtain ⟨t, ht⟩ := t
  obtain ⟨m, rfl⟩ : ∃ m, T = t + m := ⟨T - t, by omega⟩
  rw [HMM.smoothJoint_eq, h.filterJoint, Finset.sum_mul]
  refine Finset.sum_congr rfl fun j hj => ?_
  rw [HMM.smoothJoint_eq, ← h.future, (Finset.mem_filter.1 hj).2]

theorem filterLaw (h : Lumps f M M') (t : ℕ) (k : X') : M'.filterLaw t k = ∑ j with f j = k, M.filterLaw t j := by
  simp only [HMM.filterLaw, h.filterJoint, h.evidence, Finset.sum_div]

theorem smoothLaw (h : Lumps f M M') (T : ℕ) (t : Fin (T + 1)) (k : X') :
    M'.smoothLaw T t k = ∑ j with f j = k, M.smoothLaw T t j := by
  simp only [HMM.smoothLaw, h.smoothJoint, h.evidence, Finset.sum_div]

end Cuthbert.Spec.Lumps

namespace Cuthbert.Discrete
open Fl Spec

variable {n n' : ℕ} {Inp Inp' K K' : Type*} {f : Fin (n + 1) → Fin (n' + 1)}
  {M : HMM (Fin (n + 1))} {M' : HMM (Fin (n' + 1))}
  {getInit : Inp → Fin (n + 1) → Fl} {getTrans : Inp → Fin (n + 1) → Fin (n + 1) → Fl}
  {getObs : Inp → Fin (n + 1) → Fl} {inputs : List Inp}
  {getInit' : Inp' → Fin (n' + 1) → Fl} {getTrans' : Inp' → Fin (n' + 1) → Fin (n' + 1) → Fl}
  {getObs' : Inp' → Fin (n' + 1) → Fl} {inputs' : List Inp'}

theorem Valid.lump (hV : Valid M) (h : Lumps f M M') (hf : Function.Surjective f) : Valid M' where
  init_nonneg k := by rw [h.init]; exact Finset.sum_nonneg fun j _ => hV.init_nonneg j
  init_sum := by simp only [h.init]; rw [Finset.sum_fiberwise]; exact hV.init_sum
  trans_nonneg t i k := by
    obtain ⟨i, rfl⟩ := hf i
    rw [h.trans]; exact Finset.sum_nonneg fun j _ => hV.trans_nonneg t i j
  trans_sum t i := by
    obtain ⟨i, rfl⟩ := hf i
    simp only [h.trans]; rw [Finset.sum_fiberwise]; exact hV.trans_sum t i

theorem RowsPositive.lump {T : ℕ} (hp : RowsPositive M T) (h : Lumps f M M') (hf : Function.Surjective f) :
    RowsPositive M' T := by
  intro t ht i
  obtain ⟨i, rfl⟩ := hf i
  simp only [h.sum_step]
  rw [Finset.sum_fiberwise]
  exact hp t ht i

theorem AllReachable.lump {T : ℕ} (hp : AllReachable M T) (h : Lumps f M M') (hf : Function.Surjective f) :
    AllReachable M' T := by
  intro t ht k
  obtain ⟨j, rfl⟩ := hf k
  simp only [h.filterJoint]
  rw [Lumps.sum_classes]
  simp only [h.trans, Finset.mul_sum]
  rw [Finset.sum_comm]
  exact Finset.sum_pos (fun j _ => hp t ht j) ⟨j, by simp⟩

/-- **C81** (filter). If the states of a hidden Markov model can be merged into classes, then the filter run on the
merged model (in any mode, with any types of inputs) returns at each time the total probability of each class under the
distribution that the filter returns for the original model, and the same log normalising constant. -/
theorem filter_lumped (hR : Represents M getInit getTrans getObs inputs)
    (hR' : Represents M' getInit' getTrans' getObs' inputs') (hV : Valid M) (h : Lumps f M M')
    (hf : Function.Surjective f) (hlen : inputs'.length = inputs.length) (hne : inputs ≠ [])
    (hpos : RowsPositive M (inputs.length - 1)) (rng : Prng K) (rng' : Prng K') (key : Option K) (key' : Option K')
    (parallel parallel' : Bool) :
    ∃ states states', (filter rng (buildFilter (K := K) getInit getTrans getObs) inputs parallel key).result
        = .ok states ∧
      (filter rng' (buildFilter (K := K') getInit' getTrans' getObs') inputs' parallel' key').result = .ok states' ∧
      states.length = inputs.length ∧ states'.length = inputs.length ∧
      ∀ (t : ℕ) s s', states[t]? = some s → states'[t]? = some s' →
        (∃ p : Fin (n + 1) → ℝ, (∀ j, s.dist j = fin (p j)) ∧ ∀ k, s'.dist k = fin (∑ j with f j = k, p j)) ∧
        s'.logNormalizingConstant = s.logNormalizingConstant := by
  obtain ⟨states, e, hl, hall⟩ := discrete_filter_exact hR hV hne hpos rng key parallel
  have hne' : inputs' ≠ [] := by
    rintro rfl; exact hne (List.length_eq_zero_iff.1 hlen.symm)
  obtain ⟨states', e', hl', hall'⟩ := discrete_filter_exact hR' (hV.lump h hf) hne'
    (by rw [hlen]; exact hpos.lump h hf) rng' key' parallel'
  refine ⟨states, states', e, e', hl, hl'.trans hlen, fun t s s' hs hs' => ?_⟩
  obtain ⟨h1, -, h3, -⟩ := hall t s hs
  obtain ⟨h1', -, h3', -⟩ := hall' t s' hs'
  refine ⟨⟨_, h1, fun k => ?_⟩, ?_⟩
  · rw [h1', h.filterLaw]
  · rw [h3, h3', h.evidence]

/-- **C81** (smoother). The same for the smoothing distributions, in any combination of modes. -/
theorem smoother_lumped (hR : Represents M getInit getTrans getObs inputs)
    (hR' : Represents M' getInit' getTrans' getObs' inputs') (hV : Valid M) (h : Lumps f M M')
    (hf : Function.Surjective f) (T : ℕ) (hlen : inputs.length = T + 1) (hlen' : inputs'.length = T + 1) (hT : 1 ≤ T)
    (hpos : RowsPositive M T) (hreach : AllReachable M T)
    (rng rngS : Prng K) (rng' rngS' : Prng K') (key keyS : Option K) (key' keyS' : Option K')
    (parallel parallel' parallelS parallelS' : Bool) (dummy : Inp → Inp) (dummy' : Inp' → Inp')
    (fs : List (FilterState n Inp)) (fs' : List (FilterState n' Inp'))
    (hfs : (filter rng (buildFilter (K := K) getInit getTrans getObs) inputs parallel key).result = .ok fs)
    (hfs' : (filter rng' (buildFilter (K := K') getInit' getTrans' getObs') inputs' parallel' key').result = .ok fs') :
    ∃ states states', (smoother rngS FilterState.modelInputs (fun u => .ok (dummy u))
        (buildSmoother dummy getTrans) fs none parallelS keyS).result = .ok states ∧
      (smoother rngS' FilterState.modelInputs (fun u => .ok (dummy' u))
        (buildSmoother dummy' getTrans') fs' none parallelS' keyS').result = .ok states' ∧
      states.length = T + 1 ∧ states'.length = T + 1 ∧
      ∀ (t : ℕ) s s', states[t]? = some s → states'[t]? = some s' →
        ∃ p : Fin (n + 1) → ℝ, (∀ j, s.dist j = fin (p j)) ∧ ∀ k, s'.dist k = fin (∑ j with f j = k, p j) := by
  obtain ⟨states, e, hl, hall⟩ := discrete_smoother_exact hR hV T hlen hT hpos hreach rng rngS key keyS parallel
    parallelS dummy fs hfs
  obtain ⟨states', e', hl', hall'⟩ := discrete_smoother_exact hR' (hV.lump h hf) T hlen' hT (hpos.lump h hf)
    (hreach.lump h hf) rng' rngS' key' keyS' parallel' parallelS' dummy' fs' hfs'
  refine ⟨states, states', e, e', hl, hl', fun t s s' hs hs' => ?_⟩
  have ht : t < T + 1 := by
    rw [← hl]; by_contra hc; rw [List.getElem?_eq_none (by omega)] at hs; cases hs
  refine ⟨_, (hall t ht s hs).1, fun k => ?_⟩
  rw [(hall' t ht s' hs').1, h.smoothLaw]

/-- **C81** (renaming). If the callbacks of two runs differ by a renaming `σ` of the states, so do the distributions
that the filter returns; the log normalising constants are equal. -/
theorem filter_relabelled (σ : Equiv.Perm (Fin (n + 1))) (hR : Represents M getInit getTrans getObs inputs)
    (hV : Valid M) (hne : inputs ≠ []) (hpos : RowsPositive M (inputs.length - 1)) (rng : Prng K) (rng' : Prng K')
    (key : Option K) (key' : Option K') (parallel parallel' : Bool) :
    ∃ states states', (filter rng (buildFilter (K := K) getInit getTrans getObs) inputs parallel key).result
        = .ok states ∧
      (filter rng' (buildFilter (K := K') (fun u j => getInit u (σ j)) (fun u i j => getTrans u (σ i) (σ j))
        (fun u j => getObs u (σ j))) inputs parallel' key').result = .ok states' ∧
      states.length = inputs.length ∧ states'.length = inputs.length ∧
      ∀ (t : ℕ) s s', states[t]? = some s → states'[t]? = some s' →
        (∀ j, s'.dist j = s.dist (σ j)) ∧ s'.logNormalizingConstant = s.logNormalizingConstant := by
  have hs : ∀ (g : Fin (n + 1) → ℝ) k, ∑ j with σ.symm j = k, g j = g (σ k) := by
    intro g k
    have : (Finset.univ.filter fun j => σ.symm j = k) = {σ k} := by
      ext j; simp [Equiv.symm_apply_eq]
    rw [this, Finset.sum_singleton]
  have hL : Lumps σ.symm M ⟨fun j => M.init (σ j), fun t i j => M.trans t (σ i) (σ j), fun t j => M.lik t (σ j)⟩ :=
    ⟨fun k => by rw [hs], fun t i k => by rw [hs]; simp, fun t j => by simp⟩
  obtain ⟨states, states', e, e', hl, hl', hall⟩ := filter_lumped hR
    (getInit' := fun u j => getInit u (σ j)) (getTrans' := fun u i j => getTrans u (σ i) (σ j))
    (getObs' := fun u j => getObs u (σ j)) (inputs' := inputs)
    ⟨fun u hu j => hR.init u hu _, fun t u hu i j => hR.trans t u hu _ _, fun t u hu j => hR.obs t u hu _⟩
    hV hL σ.symm.surjective rfl hne hpos rng rng' key key' parallel parallel'
  refine ⟨states, states', e, e', hl, hl', fun t s s' h1 h2 => ?_⟩
  obtain ⟨⟨p, hp, hp'⟩, hc⟩ := hall t s s' h1 h2
  exact ⟨fun j => by rw [hp', hs, hp], hc⟩

/-- A model with three states, two of which can be merged, that meets the hypotheses for every length. -/
example : ∃ (M : HMM (Fin 3)) (M' : HMM (Fin 2)) (f : Fin 3 → Fin 2), Lumps f M M' ∧ Function.Surjective f ∧ Valid M ∧
    (∀ T, RowsPositive M T) ∧ (∀ T, AllReachable M T) ∧ M.trans 0 1 ≠ M.trans 0 2 ∧ M.lik 0 0 ≠ M.lik 0 1 := by
  refine ⟨⟨![1 / 2, 1 / 4, 1 / 4], fun _ => ![![1 / 2, 1 / 4, 1 / 4], ![1 / 3, 1 / 2, 1 / 6], ![1 / 3, 1 / 3, 1 / 3]],
    fun _ => ![1, 2, 2]⟩,
    ⟨![1 / 2, 1 / 2], fun _ => ![![1 / 2, 1 / 2], ![1 / 3, 2 / 3]], fun _ => ![1, 2]⟩, ![0, 1, 1], ?_, ?_, ?_, ?_, ?_, ?_, ?_⟩
  · constructor
    · intro k; fin_cases k <;> simp [Finset.sum_filter, Fin.sum_univ_three]; norm_num
    · intro t i k
      fin_cases i <;> fin_cases k <;> simp [Finset.sum_filter, Fin.sum_univ_three] <;> norm_num
    · intro t j; fin_cases j <;> simp
  · intro k; fin_cases k
    exacts [⟨0, rfl⟩, ⟨1, rfl⟩]
  · constructor
    · intro j; fin_cases j <;> simp
    · simp [Fin.sum_univ_three]; norm_num
    · intro t i j; fin_cases i <;> fin_cases j <;> simp
    · intro t i; fin_cases i <;> simp [Fin.sum_univ_three] <;> norm_num
  · intro T t _ i; fin_cases i <;> simp [Fin.sum_univ_three] <;> norm_num
  · intro T t _ j
    refine Finset.sum_pos (fun i _ => mul_pos ?_ ?_) Finset.univ_nonempty
    · induction t generalizing i with
      | zero => rw [HMM.filterJoint_zero]; fin_cases i <;> simp
      | succ t ih =>
        rw [HMM.filterJoint_succ]
        refine Finset.sum_pos (fun l _ => mul_pos (ih (by omega) l (Finset.mem_univ l)) ?_) Finset.univ_nonempty
        unfold HMM.stepMat
        fin_cases l <;> fin_cases i <;> simp
    · fin_cases i <;> fin_cases j <;> simp
  · intro h; have := congrFun h 1; simp at this
  · simp

end Cuthbert.Discrete
