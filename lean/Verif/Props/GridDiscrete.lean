import Verif.Props.Discrete
import Verif.Spec.Grid

/-!
# Subdividing the steps of a hidden Markov model (C82)
-/

namespace Cuthbert.Spec.HMM

variable {X : Type*} [Fintype X] [DecidableEq X] {M M' : HMM X} {m : ℕ → ℕ}

theorem through_eq (M : HMM X) (t k : ℕ) (i j : X) : M.through t k i j = M.stepsFrom t k i j := by
  induction k generalizing j with
  | zero => rfl
  | succ k ih => simp only [through, ih, stepsFrom, Matrix.mul_apply]; rfl

theorem filterJoint_steps (M : HMM X) (t k : ℕ) (j : X) :
    M.filterJoint (t + k) j = ∑ i, M.filterJoint t i * M.stepsFrom t k i j := by
  induction k generalizing j with
  | zero => simp [stepsFrom, Matrix.one_apply]
  | succ k ih =>
    rw [← Nat.add_assoc, filterJoint_succ]
    simp only [ih, stepsFrom, Matrix.mul_apply, Finset.sum_mul, Finset.mul_sum, mul_assoc]
    rw [Finset.sum_comm]

theorem future_steps (M : HMM X) (t k n : ℕ) (i : X) :
    M.future t (k + n) i = ∑ j, M.stepsFrom t k i j * M.future (t + k) n j := by
  induction k generalizing t i with
  | zero => simp [stepsFrom, Matrix.one_apply]
  | succ k ih =>
    rw [show k + 1 + n = (k + n) + 1 by omega, future_succ, stepsFrom_succ_left]
    simp only [ih, Matrix.mul_apply, Finset.sum_mul, Finset.mul_sum, mul_assoc]
    rw [Finset.sum_comm]
    refine Finset.sum_congr rfl fun j _ => Finset.sum_congr rfl fun l _ => ?_
    rw [show t + 1 + k = t + (k + 1) by omega]

/-- Time on the fine grid. -/
abbrev clock (m : ℕ → ℕ) (t : ℕ) : ℕ := ∑ r ∈ Finset.range t, m r

namespace Subdivides
variable (h : Subdivides M M' m)
include h

theorem stepMat (t : ℕ) : M'.stepMat t = M.stepsFrom (clock m t) (m t) := by
  ext i j; rw [← through_eq]; exact h.step t i j

theorem filterJoint (t : ℕ) (j : X) : M'.filterJoint t j = M.filterJoint (clock m t) j := by
  induction t generalizing j with
  | zero => rw [filterJoint_zero, h.init]; exact (M.filterJoint_zero j).symm
  | succ t ih =>
    rw [filterJoint_succ, clock, Finset.sum_range_succ, filterJoint_steps, h.stepMat]
    simp only [ih]

theorem evidence (t : ℕ) : M'.evidence t = M.evidence (clock m t) := by
  simp only [evidence_eq_sum, h.filterJoint]

theorem future (t n : ℕ) (i : X) : M'.future t n i = M.future (clock m t) (clock m (t + n) - clock m t) i := by
  induction n generalizing t i with
  | zero => simp [future_zero]
  | succ n ih =>
    have hle : clock m (t + 1) ≤ clock m (t + 1 + n) :=
      Finset.sum_le_sum_of_subset (Finset.range_mono (by omega))
    have e1 : clock m (t + 1) = clock m t + m t := Finset.sum_range_succ ..
    have e : clock m (t + (n + 1)) - clock m t = m t + (clock m (t + 1 + n) - clock m (t + 1)) := by
      rw [show t + (n + 1) = t + 1 + n by omega]; omega
    rw [e, future_succ, M.future_steps, h.stepMat, ← e1]
    simp only [ih]

theorem smoothJoint (T : ℕ) (t : Fin (T + 1)) (ht : clock m t < clock m T + 1) (j : X) :
    M'.smoothJoint T t j = M.smoothJoint (clock m T) ⟨clock m t, ht⟩ j := by
  obtain ⟨t, htT⟩ := t
  obtain ⟨n, rfl⟩ : ∃ n, T = t + n := ⟨T - t, by omega⟩
  rw [smoothJoint_eq, h.filterJoint, h.future]
  have hle : clock m t ≤ clock m (t + n) := Finset.sum_le_sum_of_subset (Finset.range_mono (by omega))
  obtain ⟨k, hk⟩ : ∃ k, clock m (t + n) = clock m t + k := ⟨clock m (t + n) - clock m t, by omega⟩
  have e := M.smoothJoint_eq (clock m t) k j
  have e2 : ∀ (N : ℕ) (hN : N = clock m t + k) (h1 : clock m t < N + 1),
      M.smoothJoint N ⟨clock m t, h1⟩ j = M.filterJoint (clock m t) j * M.future (clock m t) k j := by
    intro N hN h1; subst hN; exact e
  rw [show clock m (t + n) - clock m t = k by omega]
  exact (e2 _ hk ht).symm

end Subdivides

end Cuthbert.Spec.HMM

namespace Cuthbert.Discrete
open Fl Spec Spec.HMM

variable {n : ℕ} {Inp Inp' K K' : Type*} {M M' : HMM (Fin (n + 1))} {m : ℕ → ℕ}
  {getInit : Inp → Fin (n + 1) → Fl} {getTrans : Inp → Fin (n + 1) → Fin (n + 1) → Fl}
  {getObs : Inp → Fin (n + 1) → Fl} {inputs : List Inp}
  {getInit' : Inp' → Fin (n + 1) → Fl} {getTrans' : Inp' → Fin (n + 1) → Fin (n + 1) → Fl}
  {getObs' : Inp' → Fin (n + 1) → Fl} {inputs' : List Inp'}

/-- **C82** (discrete filter). If each step of a hidden Markov model amounts to several steps of another, the discrete
filter returns for the coarse model at each time the distribution and the log normalising constant that it returns for
the fine model at the corresponding time. -/
theorem filter_subdivided (hR : Represents M getInit getTrans getObs inputs)
    (hR' : Represents M' getInit' getTrans' getObs' inputs') (hV : Valid M) (hV' : Valid M') (h : M.Subdivides M' m)
    (T : ℕ) (hlen : inputs.length = clock m T + 1) (hlen' : inputs'.length = T + 1)
    (hpos : RowsPositive M (clock m T)) (hpos' : RowsPositive M' T) (rng : Prng K) (rng' : Prng K')
    (key : Option K) (key' : Option K') (parallel parallel' : Bool) :
    ∃ states states', (filter rng (buildFilter (K := K) getInit getTrans getObs) inputs parallel key).result
        = .ok states ∧
      (filter rng' (buildFilter (K := K') getInit' getTrans' getObs') inputs' parallel' key').result = .ok states' ∧
      ∀ t ≤ T, ∃ s s', states[clock m t]? = some s ∧ states'[t]? = some s' ∧
        (∀ j, s'.dist j = s.dist j) ∧ s'.logNormalizingConstant = s.logNormalizingConstant := by
  obtain ⟨states, e, hl, hall⟩ := discrete_filter_exact hR hV (by rintro rfl; simp at hlen) (by rw [hlen]; exact hpos)
    rng key parallel
  obtain ⟨states', e', hl', hall'⟩ := discrete_filter_exact hR' hV' (by rintro rfl; simp at hlen')
    (by rw [hlen']; exact hpos') rng' key' parallel'
  refine ⟨states, states', e, e', fun t ht => ?_⟩
  have hle : clock m t ≤ clock m T := Finset.sum_le_sum_of_subset (Finset.range_mono ht)
  have h1 : clock m t < states.length := by rw [hl, hlen]; omega
  have h2 : t < states'.length := by rw [hl', hlen']; omega
  obtain ⟨a1, -, a3, -⟩ := hall (clock m t) _ (List.getElem?_eq_getElem h1)
  obtain ⟨b1, -, b3, -⟩ := hall' t _ (List.getElem?_eq_getElem h2)
  refine ⟨_, _, List.getElem?_eq_getElem h1, List.getElem?_eq_getElem h2, fun j => ?_, ?_⟩
  · rw [a1, b1, filterLaw, filterLaw, h.filterJoint, h.evidence]
  · rw [a3, b3, h.evidence]

/-- **C82** (discrete smoother). -/
theorem smoother_subdivided (hR : Represents M getInit getTrans getObs inputs)
    (hR' : Represents M' getInit' getTrans' getObs' inputs') (hV : Valid M) (hV' : Valid M') (h : M.Subdivides M' m)
    (T : ℕ) (hlen : inputs.length = clock m T + 1) (hlen' : inputs'.length = T + 1) (hT : 1 ≤ clock m T)
    (hpos : RowsPositive M (clock m T)) (hpos' : RowsPositive M' T) (hreach : AllReachable M (clock m T))
    (hreach' : AllReachable M' T) (rng rngS : Prng K) (rng' rngS' : Prng K') (key keyS : Option K)
    (key' keyS' : Option K') (parallel parallel' parallelS parallelS' : Bool) (dummy : Inp → Inp) (dummy' : Inp' → Inp')
    (fs : List (FilterState n Inp)) (fs' : List (FilterState n Inp'))
    (hfs : (filter rng (buildFilter (K := K) getInit getTrans getObs) inputs parallel key).result = .ok fs)
    (hfs' : (filter rng' (buildFilter (K := K') getInit' getTrans' getObs') inputs' parallel' key').result = .ok fs') :
    ∃ states states', (smoother rngS FilterState.modelInputs (fun u => .ok (dummy u))
        (buildSmoother dummy getTrans) fs none parallelS keyS).result = .ok states ∧
      (smoother rngS' FilterState.modelInputs (fun u => .ok (dummy' u))
        (buildSmoother dummy' getTrans') fs' none parallelS' keyS').result = .ok states' ∧
      ∀ t ≤ T, ∃ s s', states[clock m t]? = some s ∧ states'[t]? = some s' ∧ ∀ j, s'.dist j = s.dist j := by
  have hT' : 1 ≤ T := by
    rcases Nat.eq_zero_or_pos T with rfl | h0
    · simp [clock] at hT
    · exact h0
  obtain ⟨states, e, hl, hall⟩ := discrete_smoother_exact hR hV (clock m T) hlen hT hpos hreach rng rngS key keyS parallel
    parallelS dummy fs hfs
  obtain ⟨states', e', hl', hall'⟩ := discrete_smoother_exact hR' hV' T hlen' hT' hpos' hreach' rng' rngS' key' keyS'
    parallel' parallelS' dummy' fs' hfs'
  refine ⟨states, states', e, e', fun t ht => ?_⟩
  have hle : clock m t ≤ clock m T := Finset.sum_le_sum_of_subset (Finset.range_mono ht)
  have h1 : clock m t < states.length := by rw [hl]; omega
  have h2 : t < states'.length := by rw [hl']; omega
  have a1 := (hall (clock m t) (by omega) _ (List.getElem?_eq_getElem h1)).1
  have b1 := (hall' t (by omega) _ (List.getElem?_eq_getElem h2)).1
  refine ⟨_, _, List.getElem?_eq_getElem h1, List.getElem?_eq_getElem h2, fun j => ?_⟩
  rw [a1, b1, smoothLaw, smoothLaw, h.smoothJoint T ⟨t, by omega⟩ (Nat.lt_succ_of_le hle), h.evidence]

/-- Non-vacuity: the two-state chain observed after every second transition only. -/
example : ∃ M M' : HMM (Fin 2), M.Subdivides M' (fun _ => 2) ∧ Valid M ∧ Valid M' ∧ (∀ T, RowsPositive M T) ∧
    (∀ T, RowsPositive M' T) ∧ M.lik 1 0 ≠ M.lik 1 1 := by
  refine ⟨⟨fun _ => 1 / 2, fun _ => ![![3 / 4, 1 / 4], ![1 / 4, 3 / 4]], fun t => if t % 2 = 0 then 1 else ![1, 2]⟩,
    ⟨fun _ => 1 / 2, fun _ => ![![5 / 8, 3 / 8], ![3 / 8, 5 / 8]], fun _ => ![1, 2]⟩, ⟨rfl, ?_⟩, ?_, ?_, ?_, ?_, ?_⟩
  · intro t i j
    have h0 : (∑ r ∈ Finset.range t, 2) % 2 = 0 := by simp
    have h1 : (∑ r ∈ Finset.range t, 2 + 1) % 2 ≠ 0 := by omega
    simp only [through, add_zero, h0, h1, if_true, if_false, Pi.one_apply, mul_one]
    fin_cases i <;> fin_cases j <;> norm_num [Fin.sum_univ_two]
  · constructor
    · intro j; simp
    · simp
    · intro t i j; fin_cases i <;> fin_cases j <;> norm_num
    · intro t i; rw [Fin.sum_univ_two]; fin_cases i <;> norm_num
  · constructor
    · intro j; simp
    · simp
    · intro t i j; fin_cases i <;> fin_cases j <;> norm_num
    · intro t i; rw [Fin.sum_univ_two]; fin_cases i <;> norm_num
  · intro T t _ i
    dsimp only
    rw [Fin.sum_univ_two]
    split_ifs <;> fin_cases i <;> norm_num
  · intro T t _ i; rw [Fin.sum_univ_two]; fin_cases i <;> norm_num
  · simp

end Cuthbert.Discrete
