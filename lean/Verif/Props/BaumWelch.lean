import Verif.Props.Discrete
import Verif.Spec.BaumWelch
import Mathlib.Analysis.SpecialFunctions.Log.Deriv
import Mathlib.Analysis.SpecialFunctions.ExpDeriv

/-!
# EM with the discrete smoother (C101)
-/

namespace Cuthbert.Spec.HMM

variable {X : Type*} [Fintype X] [DecidableEq X] (M : HMM X)

/-! ## The law of two consecutive states -/

/-- Joint of two consecutive states and the last one. -/
def tripleJoint (T : ℕ) (t : Fin T) (i j l : X) : ℝ :=
  ∑ x : Fin (T + 1) → X, if x t.castSucc = i ∧ x t.succ = j then (if x (Fin.last T) = l then M.joint T x else 0) else 0

theorem stepJoint_eq_sum (T : ℕ) (t : Fin T) (i j : X) : M.stepJoint T t i j = ∑ l, M.tripleJoint T t i j l := by
  unfold stepJoint tripleJoint
  rw [Finset.sum_comm]
  refine Finset.sum_congr rfl fun x _ => ?_
  by_cases h : x t.castSucc = i ∧ x t.succ = j <;> simp [h]

theorem tripleJoint_last (T : ℕ) (i j l : X) :
    M.tripleJoint (T + 1) (Fin.last T) i j l = if j = l then M.filterJoint T i * M.stepMat T i j else 0 := by
  unfold tripleJoint
  rw [sum_path_succ]
  simp only [joint_snoc, Fin.snoc_last, Fin.snoc_castSucc, Fin.succ_last]
  split_ifs with h
  · subst h
    rw [Finset.sum_eq_single j]
    · rw [filterJoint, Finset.sum_mul]
      refine Finset.sum_congr rfl fun x _ => ?_
      by_cases hx : x (Fin.last T) = i <;> simp [hx, stepMat]
    · intro b _ hb; simp [hb]
    · simp
  · refine Finset.sum_eq_zero fun b _ => Finset.sum_eq_zero fun x _ => ?_
    by_cases hb : b = j
    · subst hb; simp [h]
    · simp [hb]

theorem tripleJoint_succ (T : ℕ) (t : Fin T) (i j l : X) :
    M.tripleJoint (T + 1) t.castSucc i j l = ∑ k, M.tripleJoint T t i j k * M.stepMat T k l := by
  unfold tripleJoint
  rw [sum_path_succ]
  simp only [joint_snoc, Fin.snoc_last, Fin.snoc_castSucc, Fin.succ_castSucc]
  rw [Finset.sum_eq_single l]
  · simp only [if_true, Finset.sum_mul]
    rw [Finset.sum_comm]
    refine Finset.sum_congr rfl fun x _ => ?_
    by_cases h : x t.castSucc = i ∧ x t.succ = j
    · simp only [h, and_self, if_true]
      rw [Finset.sum_eq_single (x (Fin.last T))]
      · simp [stepMat]
      · intro b _ hb; rw [if_neg (Ne.symm hb), zero_mul]
      · simp
    · simp [h]
  · intro b _ hb; simp [hb]
  · simp

theorem tripleJoint_eq (t m : ℕ) (i j l : X) : M.tripleJoint (t + 1 + m) ⟨t, by omega⟩ i j l =
    M.filterJoint t i * M.stepMat t i j * M.stepsFrom (t + 1) m j l := by
  induction m generalizing l with
  | zero =>
    refine (M.tripleJoint_last t i j l).trans ?_
    simp only [stepsFrom, Matrix.one_apply]
    split_ifs <;> simp
  | succ m ih =>
    refine (M.tripleJoint_succ (t + 1 + m) ⟨t, by omega⟩ i j l).trans ?_
    simp only [ih, stepsFrom, Matrix.mul_apply, Finset.mul_sum]
    refine Finset.sum_congr rfl fun k _ => ?_
    ring

theorem stepJoint_eq (t m : ℕ) (i j : X) : M.stepJoint (t + 1 + m) ⟨t, by omega⟩ i j =
    M.filterJoint t i * M.stepMat t i j * M.future (t + 1) m j := by
  rw [stepJoint_eq_sum]
  simp only [tripleJoint_eq, future, Finset.mul_sum]

/-! ## The objective -/

variable {M} {T : ℕ}

omit [Fintype X] [DecidableEq X] in
theorem factors_ne_zero {x : Fin (T + 1) → X} (h : M.joint T x ≠ 0) : M.init (x 0) ≠ 0 ∧
    ∀ t : Fin T, M.trans t (x t.castSucc) (x t.succ) ≠ 0 ∧ M.lik t (x t.succ) ≠ 0 := by
  refine ⟨left_ne_zero_of_mul h, fun t => ?_⟩
  have := (Finset.prod_ne_zero_iff.mp (right_ne_zero_of_mul h)) t (Finset.mem_univ t)
  exact ⟨left_ne_zero_of_mul this, right_ne_zero_of_mul this⟩

omit [Fintype X] [DecidableEq X] in
theorem log_joint {x : Fin (T + 1) → X} (h : M.joint T x ≠ 0) : Real.log (M.joint T x) =
    Real.log (M.init (x 0)) +
      ∑ t : Fin T, (Real.log (M.trans t (x t.castSucc) (x t.succ)) + Real.log (M.lik t (x t.succ))) := by
  obtain ⟨h1, h2⟩ := factors_ne_zero h
  rw [joint, Real.log_mul h1 (right_ne_zero_of_mul h), Real.log_prod fun t _ => mul_ne_zero (h2 t).1 (h2 t).2]
  congr 1
  exact Finset.sum_congr rfl fun t _ => Real.log_mul (h2 t).1 (h2 t).2

theorem sum_smoothJoint (M : HMM X) (t : Fin (T + 1)) (f : X → ℝ) :
    ∑ i, M.smoothJoint T t i * f i = ∑ x, M.joint T x * f (x t) := by
  simp only [smoothJoint, Finset.sum_mul]
  rw [Finset.sum_comm]
  refine Finset.sum_congr rfl fun x _ => ?_
  simp [ite_mul]

theorem sum_stepJoint (M : HMM X) (t : Fin T) (f : X → X → ℝ) :
    ∑ i, ∑ j, M.stepJoint T t i j * f i j = ∑ x, M.joint T x * f (x t.castSucc) (x t.succ) := by
  simp only [stepJoint, Finset.sum_mul]
  have : ∀ i, ∑ j, ∑ x : Fin (T + 1) → X, (if x t.castSucc = i ∧ x t.succ = j then M.joint T x else 0) * f i j =
      ∑ x : Fin (T + 1) → X, if x t.castSucc = i then M.joint T x * f i (x t.succ) else 0 := fun i => by
    rw [Finset.sum_comm]
    refine Finset.sum_congr rfl fun x _ => ?_
    by_cases h : x t.castSucc = i <;> simp [h, ite_mul]
  simp only [this]
  rw [Finset.sum_comm]
  refine Finset.sum_congr rfl fun x _ => ?_
  simp

theorem objective_eq (M M' : HMM X) (h : ∀ x : Fin (T + 1) → X, M.joint T x ≠ 0 → M'.joint T x ≠ 0) :
    M'.objective T (M.smoothLaw T 0) (M.stepLaw T) =
      (∑ x, M.joint T x * Real.log (M'.joint T x)) / M.evidence T := by
  have e1 : ∀ i, M.smoothLaw T 0 i * Real.log (M'.init i) =
      M.smoothJoint T 0 i * Real.log (M'.init i) / M.evidence T := fun i => by rw [smoothLaw]; ring
  have e2 : ∀ (t : Fin T) i j, M.stepLaw T t i j * (Real.log (M'.trans t i j) + Real.log (M'.lik t j)) =
      M.stepJoint T t i j * (Real.log (M'.trans t i j) + Real.log (M'.lik t j)) / M.evidence T := fun t i j => by
    rw [stepLaw]; ring
  simp only [objective, e1, e2, ← Finset.sum_div]
  rw [← add_div]
  congr 1
  rw [sum_smoothJoint M 0 fun i => Real.log (M'.init i)]
  have e3 : ∀ t : Fin T, ∑ i, ∑ j, M.stepJoint T t i j * (Real.log (M'.trans t i j) + Real.log (M'.lik t j)) =
      ∑ x, M.joint T x * (Real.log (M'.trans t (x t.castSucc) (x t.succ)) + Real.log (M'.lik t (x t.succ))) :=
    fun t => sum_stepJoint M t fun i j => Real.log (M'.trans t i j) + Real.log (M'.lik t j)
  simp only [e3]
  rw [Finset.sum_comm, ← Finset.sum_add_distrib]
  refine Finset.sum_congr rfl fun x _ => ?_
  by_cases hx : M.joint T x = 0
  · simp [hx]
  · rw [log_joint (h x hx), mul_add, Finset.mul_sum]

/-- Gibbs' inequality for weights that need not add up to one. -/
theorem gibbs {ι : Type*} [Fintype ι] (p q : ι → ℝ) (hp : ∀ x, 0 ≤ p x) (hq : ∀ x, 0 ≤ q x)
    (h : ∀ x, p x ≠ 0 → q x ≠ 0) (hP : 0 < ∑ x, p x) :
    ∑ x, p x * Real.log (q x) - ∑ x, p x * Real.log (p x) ≤
      (∑ x, p x) * (Real.log (∑ x, q x) - Real.log (∑ x, p x)) := by
  obtain ⟨P, hPd⟩ : ∃ P, P = ∑ x, p x := ⟨_, rfl⟩
  obtain ⟨Q, hQd⟩ : ∃ Q, Q = ∑ x, q x := ⟨_, rfl⟩
  have hQ : 0 < Q := by
    obtain ⟨x, -, hx⟩ := Finset.exists_ne_zero_of_sum_ne_zero hP.ne'
    rw [hQd]
    exact Finset.sum_pos' (fun y _ => hq y) ⟨x, Finset.mem_univ x, lt_of_le_of_ne (hq x) (h x hx).symm⟩
  rw [← hPd, ← hQd]
  rw [← hPd] at hP
  have key : ∀ x, p x * Real.log (q x) - p x * Real.log (p x) ≤
      p x * (Real.log Q - Real.log P) + (q x * (P / Q) - p x) := fun x => by
    by_cases hx : p x = 0
    · simp only [hx, zero_mul, sub_self, zero_add, sub_zero]
      exact mul_nonneg (hq x) (div_nonneg hP.le hQ.le)
    · have hx' : 0 < p x := lt_of_le_of_ne (hp x) (Ne.symm hx)
      have hy' : 0 < q x := lt_of_le_of_ne (hq x) (h x hx).symm
      have := Real.log_le_sub_one_of_pos (x := q x * P / (p x * Q)) (by positivity)
      rw [Real.log_div (by positivity) (by positivity), Real.log_mul hy'.ne' hP.ne', Real.log_mul hx'.ne' hQ.ne'] at this
      have h2 := mul_le_mul_of_nonneg_left this hx'.le
      have e : p x * (q x * P / (p x * Q) - 1) = q x * (P / Q) - p x := by field_simp
      rw [e] at h2
      linarith
  have := Finset.sum_le_sum fun x (_ : x ∈ Finset.univ) => key x
  rw [Finset.sum_sub_distrib, Finset.sum_add_distrib, Finset.sum_sub_distrib, ← Finset.sum_mul, ← Finset.sum_mul, ← hPd,
    ← hQd, mul_div_cancel₀ _ hQ.ne', sub_self, add_zero] at this
  exact this

theorem em (M M' : HMM X) (hM : ∀ x, 0 ≤ M.joint T x) (hM' : ∀ x, 0 ≤ M'.joint T x)
    (h : ∀ x : Fin (T + 1) → X, M.joint T x ≠ 0 → M'.joint T x ≠ 0) (he : 0 < M.evidence T) :
    M'.objective T (M.smoothLaw T 0) (M.stepLaw T) - M.objective T (M.smoothLaw T 0) (M.stepLaw T) ≤
      Real.log (M'.evidence T) - Real.log (M.evidence T) := by
  rw [objective_eq M M' h, objective_eq M M fun _ => id, ← sub_div, div_le_iff₀ he, mul_comm _ (M.evidence T)]
  exact gibbs _ _ hM hM' h he

/-! ## The closed form -/

/-- Relative weights maximise the average of logarithms over all probability vectors. -/
theorem gibbs_normalised {ι : Type*} [Fintype ι] (p q : ι → ℝ) (hp : ∀ x, 0 ≤ p x) (hq : ∀ x, 0 ≤ q x)
    (h : ∀ x, p x ≠ 0 → q x ≠ 0) (hP : 0 < ∑ x, p x) (hQ : ∑ x, q x ≤ 1) :
    ∑ x, p x * Real.log (q x) ≤ ∑ x, p x * Real.log (p x / ∑ y, p y) := by
  have h1 := gibbs p q hp hq h hP
  have hQ0 : 0 < ∑ x, q x := by
    obtain ⟨x, -, hx⟩ := Finset.exists_ne_zero_of_sum_ne_zero hP.ne'
    exact Finset.sum_pos' (fun y _ => hq y) ⟨x, Finset.mem_univ x, lt_of_le_of_ne (hq x) (h x hx).symm⟩
  have h2 : ∑ x, p x * Real.log (p x / ∑ y, p y) =
      ∑ x, p x * Real.log (p x) - (∑ x, p x) * Real.log (∑ y, p y) := by
    rw [Finset.sum_mul, ← Finset.sum_sub_distrib]
    refine Finset.sum_congr rfl fun x _ => ?_
    by_cases hx : p x = 0
    · simp [hx]
    · rw [Real.log_div hx hP.ne', mul_sub]
  have h3 : Real.log (∑ x, q x) ≤ 0 := Real.log_nonpos hQ0.le hQ
  have h4 := mul_nonpos_of_nonneg_of_nonpos hP.le h3
  rw [h2]
  rw [mul_sub] at h1
  linarith

omit [Fintype X] [DecidableEq X] in
theorem joint_nonneg (hi : ∀ i, 0 ≤ M.init i) (ht : ∀ (t : Fin T) i j, 0 ≤ M.trans t i j)
    (hl : ∀ (t : Fin T) j, 0 ≤ M.lik t j) (x : Fin (T + 1) → X) : 0 ≤ M.joint T x :=
  mul_nonneg (hi _) (Finset.prod_nonneg fun t _ => mul_nonneg (ht t _ _) (hl t _))

theorem smoothLaw_nonneg (hM : ∀ x, 0 ≤ M.joint T x) (t : Fin (T + 1)) (i : X) : 0 ≤ M.smoothLaw T t i := by
  refine div_nonneg (Finset.sum_nonneg fun x _ => ?_) (Finset.sum_nonneg fun x _ => hM x)
  split_ifs
  exacts [hM x, le_rfl]

theorem stepLaw_nonneg (hM : ∀ x, 0 ≤ M.joint T x) (t : Fin T) (i j : X) : 0 ≤ M.stepLaw T t i j := by
  refine div_nonneg (Finset.sum_nonneg fun x _ => ?_) (Finset.sum_nonneg fun x _ => hM x)
  split_ifs
  exacts [hM x, le_rfl]

theorem smoothLaw_ne_zero (hM : ∀ x, 0 ≤ M.joint T x) {x : Fin (T + 1) → X} (hx : M.joint T x ≠ 0) (t : Fin (T + 1)) :
    M.smoothLaw T t (x t) ≠ 0 := by
  have hx' : 0 < M.joint T x := lt_of_le_of_ne (hM x) hx.symm
  refine (div_pos ?_ ?_).ne'
  · refine Finset.sum_pos' (fun y _ => ?_) ⟨x, Finset.mem_univ x, by simpa using hx'⟩
    split_ifs
    exacts [hM y, le_rfl]
  · exact Finset.sum_pos' (fun y _ => hM y) ⟨x, Finset.mem_univ x, hx'⟩

theorem stepLaw_ne_zero (hM : ∀ x, 0 ≤ M.joint T x) {x : Fin (T + 1) → X} (hx : M.joint T x ≠ 0) (t : Fin T) :
    M.stepLaw T t (x t.castSucc) (x t.succ) ≠ 0 := by
  have hx' : 0 < M.joint T x := lt_of_le_of_ne (hM x) hx.symm
  refine (div_pos ?_ ?_).ne'
  · refine Finset.sum_pos' (fun y _ => ?_) ⟨x, Finset.mem_univ x, by simpa using hx'⟩
    split_ifs
    exacts [hM y, le_rfl]
  · exact Finset.sum_pos' (fun y _ => hM y) ⟨x, Finset.mem_univ x, hx'⟩

/-- A state path of positive probability has positive transition probabilities where the posterior has mass. -/
theorem stepLaw_support (t : Fin T) (i j : X) (h : M.stepLaw T t i j ≠ 0) : M.trans t i j ≠ 0 := by
  have h1 : M.stepJoint T t i j ≠ 0 := fun e => h (by rw [stepLaw, e, zero_div])
  obtain ⟨x, -, hx⟩ := Finset.exists_ne_zero_of_sum_ne_zero h1
  split_ifs at hx with hc
  · have := ((factors_ne_zero hx).2 t).1
    rwa [hc.1, hc.2] at this
  · exact absurd rfl hx

theorem smoothLaw_support (i : X) (h : M.smoothLaw T 0 i ≠ 0) : M.init i ≠ 0 := by
  have h1 : M.smoothJoint T 0 i ≠ 0 := fun e => h (by rw [smoothLaw, e, zero_div])
  obtain ⟨x, -, hx⟩ := Finset.exists_ne_zero_of_sum_ne_zero h1
  split_ifs at hx with hc
  · have := (factors_ne_zero hx).1
    rwa [hc] at this
  · exact absurd rfl hx

theorem sum_smoothLaw (M : HMM X) (t : Fin (T + 1)) (he : M.evidence T ≠ 0) : ∑ i, M.smoothLaw T t i = 1 := by
  have := sum_smoothJoint M t fun _ => 1
  simp only [mul_one] at this
  simp only [smoothLaw, ← Finset.sum_div]
  rw [this]
  exact div_self he

section update

variable {M' : HMM X} {P : X → X → ℝ}

omit [DecidableEq X] in
/-- The objective of a model with the same transition matrix at all times depends on the expected counts only. -/
theorem objective_counts (hP : ∀ (t : Fin T) i j, M.trans t i j = P i j) (γ : X → ℝ) (ξ : Fin T → X → X → ℝ) :
    M.objective T γ ξ = ∑ i, γ i * Real.log (M.init i) + ∑ i, ∑ j, counts ξ i j * Real.log (P i j) +
      ∑ t, ∑ i, ∑ j, ξ t i j * Real.log (M.lik t j) := by
  have e : ∑ i, ∑ j, counts ξ i j * Real.log (P i j) = ∑ t, ∑ i, ∑ j, ξ t i j * Real.log (P i j) := by
    simp only [counts, Finset.sum_mul]
    rw [Finset.sum_comm (s := (Finset.univ : Finset (Fin T)))]
    exact Finset.sum_congr rfl fun i _ => Finset.sum_comm
  rw [objective, e, add_assoc, ← Finset.sum_add_distrib]
  congr 1
  refine Finset.sum_congr rfl fun t _ => ?_
  simp only [← Finset.sum_add_distrib]
  refine Finset.sum_congr rfl fun i _ => Finset.sum_congr rfl fun j _ => ?_
  rw [hP, mul_add]

omit [Fintype X] [DecidableEq X] in
theorem counts_nonneg {ξ : Fin T → X → X → ℝ} (hξ : ∀ t i j, 0 ≤ ξ t i j) (i j : X) : 0 ≤ counts ξ i j :=
  Finset.sum_nonneg fun t _ => hξ t i j

omit [DecidableEq X] in
/-- The relative expected counts maximise the objective among all models with the given likelihoods, one transition
matrix for all times, and probabilities that are positive where the posterior is. -/
theorem BaumWelchUpdate.maximises {γ : X → ℝ} {ξ : Fin T → X → X → ℝ} (hU : BaumWelchUpdate M M' γ ξ)
    (hP : ∀ (t : Fin T) i j, M.trans t i j = P i j) (hγ : ∀ i, 0 ≤ γ i) (hγ1 : ∑ i, γ i = 1)
    (hξ : ∀ t i j, 0 ≤ ξ t i j) (N : HMM X) (R : X → X → ℝ) (hR : ∀ (t : Fin T) i j, N.trans t i j = R i j)
    (hl : ∀ (t : Fin T) j, N.lik t j = M.lik t j) (hi0 : ∀ i, 0 ≤ N.init i) (hi1 : ∑ i, N.init i ≤ 1)
    (hR0 : ∀ i j, 0 ≤ R i j) (hR1 : ∀ i, ∑ j, R i j ≤ 1) (hi : ∀ i, γ i ≠ 0 → N.init i ≠ 0)
    (hs : ∀ i j, counts ξ i j ≠ 0 → R i j ≠ 0) : N.objective T γ ξ ≤ M'.objective T γ ξ := by
  rw [objective_counts hR, objective_counts (M := M') (P := fun i j => if ∑ k, counts ξ i k = 0 then P i j else
    counts ξ i j / ∑ k, counts ξ i k) fun t i j => by rw [hU.trans, hP]]
  refine add_le_add (add_le_add ?_ (Finset.sum_le_sum fun i _ => ?_)) (le_of_eq ?_)
  · have := gibbs_normalised γ N.init hγ hi0 hi (by rw [hγ1]; exact one_pos) hi1
    simp only [hγ1, div_one] at this
    simpa only [hU.init] using this
  · by_cases h0 : ∑ k, counts ξ i k = 0
    · have h1 : ∀ j, counts ξ i j = 0 := fun j =>
        (Finset.sum_eq_zero_iff_of_nonneg fun j _ => counts_nonneg hξ i j).mp h0 j (Finset.mem_univ j)
      simp [h1]
    · simp only [if_neg h0]
      exact gibbs_normalised (counts ξ i) (R i) (counts_nonneg hξ i) (hR0 i) (hs i)
        (lt_of_le_of_ne (Finset.sum_nonneg fun j _ => counts_nonneg hξ i j) (Ne.symm h0)) (hR1 i)
  · simp only [hl, hU.lik]

/-- The update is positive where the posterior is. -/
theorem BaumWelchUpdate.support (hM : ∀ x, 0 ≤ M.joint T x)
    (hU : BaumWelchUpdate M M' (M.smoothLaw T 0) (M.stepLaw T)) {x : Fin (T + 1) → X} (hx : M.joint T x ≠ 0) :
    M'.joint T x ≠ 0 := by
  refine mul_ne_zero ?_ (Finset.prod_ne_zero_iff.mpr fun t _ => mul_ne_zero ?_ ?_)
  · rw [hU.init]; exact smoothLaw_ne_zero hM hx 0
  · have h1 : counts (M.stepLaw T) (x t.castSucc) (x t.succ) ≠ 0 := by
      refine (Finset.sum_pos' (fun t _ => stepLaw_nonneg hM t _ _) ⟨t, Finset.mem_univ t, ?_⟩).ne'
      exact lt_of_le_of_ne (stepLaw_nonneg hM t _ _) (stepLaw_ne_zero hM hx t).symm
    have h2 : ∑ k, counts (M.stepLaw T) (x t.castSucc) k ≠ 0 := fun e => h1
      ((Finset.sum_eq_zero_iff_of_nonneg fun j _ => counts_nonneg (stepLaw_nonneg hM) _ j).mp e _ (Finset.mem_univ _))
    rw [hU.trans, if_neg h2]
    exact div_ne_zero h1 h2
  · rw [hU.lik]; exact ((factors_ne_zero hx).2 t).2

/-- The update consists of probabilities. -/
theorem BaumWelchUpdate.nonneg (hM : ∀ x, 0 ≤ M.joint T x) (ht : ∀ (t : Fin T) i j, 0 ≤ M.trans t i j)
    (hl : ∀ (t : Fin T) j, 0 ≤ M.lik t j) (hU : BaumWelchUpdate M M' (M.smoothLaw T 0) (M.stepLaw T))
    (x : Fin (T + 1) → X) : 0 ≤ M'.joint T x := by
  refine joint_nonneg (fun i => by rw [hU.init]; exact smoothLaw_nonneg hM 0 i) (fun t i j => ?_)
    (fun t j => by rw [hU.lik]; exact hl t j) x
  rw [hU.trans]
  split_ifs
  · exact ht t i j
  · exact div_nonneg (counts_nonneg (stepLaw_nonneg hM) i j)
      (Finset.sum_nonneg fun k _ => counts_nonneg (stepLaw_nonneg hM) i k)

theorem baumWelch (hi : ∀ i, 0 ≤ M.init i) (hi1 : ∑ i, M.init i ≤ 1) (hP : ∀ (t : Fin T) i j, M.trans t i j = P i j)
    (hP0 : ∀ i j, 0 ≤ P i j) (hP1 : ∀ i, ∑ j, P i j ≤ 1) (hl : ∀ (t : Fin T) j, 0 ≤ M.lik t j)
    (he : 0 < M.evidence T) (hU : BaumWelchUpdate M M' (M.smoothLaw T 0) (M.stepLaw T)) :
    Real.log (M.evidence T) ≤ Real.log (M'.evidence T) := by
  have hM : ∀ x, 0 ≤ M.joint T x := joint_nonneg hi (fun t i j => by rw [hP]; exact hP0 i j) hl
  have h1 := em M M' hM (hU.nonneg hM (fun t i j => by rw [hP]; exact hP0 i j) hl) (fun x => hU.support hM) he
  have h2 := hU.maximises hP (smoothLaw_nonneg hM 0) (sum_smoothLaw M 0 he.ne') (stepLaw_nonneg hM) M P hP
    (fun _ _ => rfl) hi hi1 hP0 hP1 (fun i => smoothLaw_support i) fun i j h => by
      obtain ⟨t, -, ht⟩ := Finset.exists_ne_zero_of_sum_ne_zero h
      rw [← hP t]
      exact stepLaw_support t i j ht
  linarith

end update

/-! ## The gradient -/

/-- Fisher's identity: along a curve of models with positive probabilities, the derivative of the objective at the model
of which the posterior is taken is the derivative of the log evidence. -/
theorem fisher (M : ℝ → HMM X) (θ : ℝ) (hi : ∀ η i, 0 < (M η).init i) (ht : ∀ η (t : Fin T) i j, 0 < (M η).trans t i j)
    (hl : ∀ η (t : Fin T) j, 0 < (M η).lik t j) (di : ∀ i, DifferentiableAt ℝ (fun η => (M η).init i) θ)
    (dt : ∀ (t : Fin T) i j, DifferentiableAt ℝ (fun η => (M η).trans t i j) θ)
    (dl : ∀ (t : Fin T) j, DifferentiableAt ℝ (fun η => (M η).lik t j) θ) [Nonempty X] :
    ∃ a, HasDerivAt (fun η => (M η).objective T ((M θ).smoothLaw T 0) ((M θ).stepLaw T)) a θ ∧
      HasDerivAt (fun η => Real.log ((M η).evidence T)) a θ := by
  have hpos : ∀ η x, 0 < (M η).joint T x := fun η x =>
    mul_pos (hi η _) (Finset.prod_pos fun t _ => mul_pos (ht η t _ _) (hl η t _))
  have hev : ∀ η, 0 < (M η).evidence T := fun η => Finset.sum_pos (fun x _ => hpos η x) Finset.univ_nonempty
  have hd : ∀ x, DifferentiableAt ℝ (fun η => (M η).joint T x) θ := fun x => by
    unfold joint
    exact (di _).mul (DifferentiableAt.fun_finsetProd fun t _ => (dt t _ _).mul (dl t _))
  have hlog : ∀ x, HasDerivAt (fun η => Real.log ((M η).joint T x))
      (deriv (fun η => (M η).joint T x) θ / (M θ).joint T x) θ := fun x => (hd x).hasDerivAt.log (hpos θ x).ne'
  refine ⟨(∑ x, deriv (fun η => (M η).joint T x) θ) / (M θ).evidence T, ?_, ?_⟩
  · have e : (fun η => (M η).objective T ((M θ).smoothLaw T 0) ((M θ).stepLaw T)) = fun η =>
        (∑ x, (M θ).joint T x * Real.log ((M η).joint T x)) / (M θ).evidence T :=
      funext fun η => objective_eq (M θ) (M η) fun x _ => (hpos η x).ne'
    rw [e]
    have h := HasDerivAt.fun_sum fun x (_ : x ∈ Finset.univ) => (hlog x).const_mul ((M θ).joint T x)
    have h2 := h.div_const ((M θ).evidence T)
    have e2 : ∀ x, (M θ).joint T x * (deriv (fun η => (M η).joint T x) θ / (M θ).joint T x) =
        deriv (fun η => (M η).joint T x) θ := fun x => mul_div_cancel₀ _ (hpos θ x).ne'
    simpa only [e2] using h2
  · have h := HasDerivAt.fun_sum fun x (_ : x ∈ Finset.univ) => (hd x).hasDerivAt
    exact h.log (hev θ).ne'

end Cuthbert.Spec.HMM

namespace Cuthbert.Discrete
open Cuthbert Cuthbert.Fl Cuthbert.Spec

variable {n : ℕ} {Inp K : Type*} {M : HMM (Fin (n + 1))} {getInit : Inp → Fin (n + 1) → Fl}
  {getTrans : Inp → Fin (n + 1) → Fin (n + 1) → Fl} {getObs : Inp → Fin (n + 1) → Fl} {inputs : List Inp}

/-- The distribution `γ` of the first state and the distributions `ξ t` of the states at times `t` and `t + 1`, as read
off from filter and smoother states: the former is the first smoothing distribution, the latter come from the smoothing
distribution at time `t + 1` and the reverse kernel of the filtering distribution at time `t`. -/
structure ReadsOff (getTrans : Inp → Fin (n + 1) → Fin (n + 1) → Fl) (inputs : List Inp) (T : ℕ)
    (filterStates : List (FilterState n Inp)) (states : List (SmootherState n Inp)) (γ : Fin (n + 1) → ℝ)
    (ξ : Fin T → Fin (n + 1) → Fin (n + 1) → ℝ) : Prop where
  first : ∃ s, states[0]? = some s ∧ ∀ i, s.dist i = fin (γ i)
  pair : ∀ t : Fin T, ∃ f s u, filterStates[(t : ℕ)]? = some f ∧ states[(t : ℕ) + 1]? = some s ∧
    inputs[(t : ℕ) + 1]? = some u ∧
    ∀ i j, s.dist j * getReverseKernel f.dist (getTrans u) j i = fin (ξ t i j)

theorem ReadsOff.unique {T : ℕ} {fs : List (FilterState n Inp)} {states : List (SmootherState n Inp)}
    {γ γ' : Fin (n + 1) → ℝ} {ξ ξ' : Fin T → Fin (n + 1) → Fin (n + 1) → ℝ}
    (h : ReadsOff getTrans inputs T fs states γ ξ) (h' : ReadsOff getTrans inputs T fs states γ' ξ') :
    γ = γ' ∧ ξ = ξ' := by
  constructor
  · obtain ⟨s, hs, h1⟩ := h.first
    obtain ⟨s', hs', h1'⟩ := h'.first
    rw [hs, Option.some.injEq] at hs'
    subst hs'
    funext i
    have := (h1 i).symm.trans (h1' i)
    exact Fl.fin.inj this
  · funext t i j
    obtain ⟨f, s, u, h1, h2, h3, h4⟩ := h.pair t
    obtain ⟨f', s', u', h1', h2', h3', h4'⟩ := h'.pair t
    rw [h1, Option.some.injEq] at h1'
    rw [h2, Option.some.injEq] at h2'
    rw [h3, Option.some.injEq] at h3'
    subst h1' h2' h3'
    exact Fl.fin.inj ((h4 i j).symm.trans (h4' i j))

/-- **C101** (pairs). The smoothing distribution at time `t + 1` and the reverse kernel of the filtering distribution at
time `t` give the posterior law of the two states. -/
theorem discrete_pair_law (hR : Represents M getInit getTrans getObs inputs) (hV : Valid M)
    (T : ℕ) (hT : inputs.length = T + 1) (hT1 : 1 ≤ T)
    (hpos : RowsPositive M T) (hreach : AllReachable M T) (rng rng' : Prng K)
    (key key' : Option K) (parallel parallel' : Bool) (dummy : Inp → Inp)
    (filterStates : List (FilterState n Inp))
    (h : (filter rng (buildFilter (K := K) getInit getTrans getObs) inputs parallel key).result
      = .ok filterStates) (states : List (SmootherState n Inp))
    (hs : (smoother rng' FilterState.modelInputs (fun u => .ok (dummy u))
        (buildSmoother dummy getTrans) filterStates none parallel' key').result = .ok states) :
    ReadsOff getTrans inputs T filterStates states (M.smoothLaw T 0) (M.stepLaw T) := by
  have hne : inputs ≠ [] := by rintro rfl; simp at hT
  obtain ⟨fs, h1, h2, h3⟩ := discrete_filter_exact hR hV hne (by rw [hT]; exact hpos) rng key parallel
  rw [h] at h1
  obtain rfl := Except.ok.inj h1
  obtain ⟨ss, k1, k2, k3⟩ := discrete_smoother_exact hR hV T hT hT1 hpos hreach rng rng' key key' parallel parallel'
    dummy filterStates h
  rw [hs] at k1
  obtain rfl := Except.ok.inj k1
  refine ⟨⟨states[0], List.getElem?_eq_getElem (by omega), fun i => ?_⟩, fun t => ?_⟩
  · exact (k3 0 (by omega) _ (List.getElem?_eq_getElem (by omega))).1 i
  · obtain ⟨t, ht⟩ := t
    refine ⟨filterStates[t], states[t + 1], inputs[t + 1], List.getElem?_eq_getElem (by omega),
      List.getElem?_eq_getElem (by omega), List.getElem?_eq_getElem (by omega), fun i j => ?_⟩
    obtain ⟨g1, g2, -, -⟩ := h3 t filterStates[t] (List.getElem?_eq_getElem (by omega))
    have g3 := (k3 (t + 1) (by omega) states[t + 1] (List.getElem?_eq_getElem (by omega))).1
    rw [getReverseKernel_eq t _ _ g2 g1 (hR.trans t _ (List.getElem?_eq_getElem (by omega))) (hreach t ht), g3, fin_mul]
    congr 1
    obtain ⟨m, rfl⟩ : ∃ m, T = t + 1 + m := ⟨T - (t + 1), by omega⟩
    have e1 := M.smoothJoint_eq (t + 1) m j
    have e2 := M.stepJoint_eq t m i j
    rw [HMM.smoothLaw, HMM.stepLaw, e1, e2]
    have hf : M.filterJoint (t + 1) j = (∑ i, M.filterJoint t i * M.trans t i j) * M.lik t j := by
      rw [M.filterJoint_succ, Finset.sum_mul]
      refine Finset.sum_congr rfl fun i _ => ?_
      unfold HMM.stepMat; ring
    have hp := (hreach t ht j).ne'
    rw [hf]
    unfold HMM.stepMat
    field_simp

/-- What a run of the filter reports at the end. -/
theorem final_constant (hR : Represents M getInit getTrans getObs inputs) (hV : Valid M) (T : ℕ)
    (hT : inputs.length = T + 1) (hpos : RowsPositive M T) (rng : Prng K) (key : Option K) (parallel : Bool)
    {filterStates : List (FilterState n Inp)}
    (h : (filter rng (buildFilter (K := K) getInit getTrans getObs) inputs parallel key).result
      = .ok filterStates) : 0 < M.evidence T ∧
    ∃ s, filterStates[T]? = some s ∧ s.logNormalizingConstant = fin (Real.log (M.evidence T)) := by
  have hne : inputs ≠ [] := by rintro rfl; simp at hT
  obtain ⟨fs, h1, h2, h3⟩ := discrete_filter_exact hR hV hne (by rw [hT]; exact hpos) rng key parallel
  rw [h] at h1
  obtain rfl := Except.ok.inj h1
  have hl : T < filterStates.length := by omega
  obtain ⟨-, g2, g3, -⟩ := h3 T filterStates[T] (List.getElem?_eq_getElem hl)
  exact ⟨g2, _, List.getElem?_eq_getElem hl, g3⟩

theorem joint_nonneg_of (hR : Represents M getInit getTrans getObs inputs) (hV : Valid M) (T : ℕ)
    (hT : inputs.length = T + 1) (x : Fin (T + 1) → Fin (n + 1)) : 0 ≤ M.joint T x :=
  HMM.joint_nonneg hV.init_nonneg (fun t => hV.trans_nonneg t)
    (fun t j => lik_nonneg_of_represents hR t (by omega) j) x

section em

variable {M' : HMM (Fin (n + 1))} {getInit' : Inp → Fin (n + 1) → Fl}
  {getTrans' : Inp → Fin (n + 1) → Fin (n + 1) → Fl} {getObs' : Inp → Fin (n + 1) → Fl}

/-- **C101** (EM). Filter and smooth under one model. For any other model under which the state paths that were possible
still are, the log likelihood that the filter reports changes by at least as much as the EM objective built from the
returned distributions. -/
theorem discrete_em (hR : Represents M getInit getTrans getObs inputs) (hV : Valid M)
    (T : ℕ) (hT : inputs.length = T + 1) (hT1 : 1 ≤ T)
    (hpos : RowsPositive M T) (hreach : AllReachable M T) (rng rng' rng'' : Prng K)
    (key key' key'' : Option K) (parallel parallel' parallel'' : Bool) (dummy : Inp → Inp)
    (filterStates : List (FilterState n Inp))
    (h : (filter rng (buildFilter (K := K) getInit getTrans getObs) inputs parallel key).result
      = .ok filterStates) (states : List (SmootherState n Inp))
    (hs : (smoother rng' FilterState.modelInputs (fun u => .ok (dummy u))
        (buildSmoother dummy getTrans) filterStates none parallel' key').result = .ok states)
    (γ : Fin (n + 1) → ℝ) (ξ : Fin T → Fin (n + 1) → Fin (n + 1) → ℝ)
    (hread : ReadsOff getTrans inputs T filterStates states γ ξ)
    (hR' : Represents M' getInit' getTrans' getObs' inputs) (hV' : Valid M') (hpos' : RowsPositive M' T)
    (hsupp : ∀ x : Fin (T + 1) → Fin (n + 1), M.joint T x ≠ 0 → M'.joint T x ≠ 0)
    (filterStates' : List (FilterState n Inp))
    (h' : (filter rng'' (buildFilter (K := K) getInit' getTrans' getObs') inputs parallel'' key'').result
      = .ok filterStates') :
    ∃ s s' l l', filterStates[T]? = some s ∧ s.logNormalizingConstant = fin l ∧
      filterStates'[T]? = some s' ∧ s'.logNormalizingConstant = fin l' ∧
      M'.objective T γ ξ - M.objective T γ ξ ≤ l' - l := by
  obtain ⟨rfl, rfl⟩ := hread.unique (discrete_pair_law hR hV T hT hT1 hpos hreach rng rng' key key' parallel parallel'
    dummy filterStates h states hs)
  obtain ⟨he, s, e1, e2⟩ := final_constant hR hV T hT hpos rng key parallel h
  obtain ⟨-, s', e1', e2'⟩ := final_constant hR' hV' T hT hpos' rng'' key'' parallel'' h'
  exact ⟨s, s', _, _, e1, e2, e1', e2', HMM.em M M' (joint_nonneg_of hR hV T hT) (joint_nonneg_of hR' hV' T hT) hsupp he⟩

/-- **C101** (Baum-Welch). Replacing the initial distribution by the first smoothing distribution and a transition matrix
by the relative expected counts, both computed from the returned states, does not decrease the log likelihood that the
filter reports. -/
theorem baum_welch_monotone (hR : Represents M getInit getTrans getObs inputs) (hV : Valid M)
    (T : ℕ) (hT : inputs.length = T + 1) (hT1 : 1 ≤ T)
    (hpos : RowsPositive M T) (hreach : AllReachable M T) (hhom : ∀ t, M.trans t = M.trans 0) (rng rng' rng'' : Prng K)
    (key key' key'' : Option K) (parallel parallel' parallel'' : Bool) (dummy : Inp → Inp)
    (filterStates : List (FilterState n Inp))
    (h : (filter rng (buildFilter (K := K) getInit getTrans getObs) inputs parallel key).result
      = .ok filterStates) (states : List (SmootherState n Inp))
    (hs : (smoother rng' FilterState.modelInputs (fun u => .ok (dummy u))
        (buildSmoother dummy getTrans) filterStates none parallel' key').result = .ok states)
    (γ : Fin (n + 1) → ℝ) (ξ : Fin T → Fin (n + 1) → Fin (n + 1) → ℝ)
    (hread : ReadsOff getTrans inputs T filterStates states γ ξ) (hU : HMM.BaumWelchUpdate M M' γ ξ)
    (hR' : Represents M' getInit' getTrans' getObs' inputs) (hpos' : RowsPositive M' T)
    (filterStates' : List (FilterState n Inp))
    (h' : (filter rng'' (buildFilter (K := K) getInit' getTrans' getObs') inputs parallel'' key'').result
      = .ok filterStates') :
    ∃ s s' l l', filterStates[T]? = some s ∧ s.logNormalizingConstant = fin l ∧
      filterStates'[T]? = some s' ∧ s'.logNormalizingConstant = fin l' ∧ l ≤ l' := by
  obtain ⟨rfl, rfl⟩ := hread.unique (discrete_pair_law hR hV T hT hT1 hpos hreach rng rng' key key' parallel parallel'
    dummy filterStates h states hs)
  have hM := joint_nonneg_of hR hV T hT
  obtain ⟨he, s, e1, e2⟩ := final_constant hR hV T hT hpos rng key parallel h
  have hV' : Valid M' := by
    refine ⟨fun j => by rw [hU.init]; exact HMM.smoothLaw_nonneg hM 0 j, ?_, fun t i j => ?_, fun t i => ?_⟩
    · simp only [hU.init]; exact HMM.sum_smoothLaw M 0 he.ne'
    · rw [hU.trans]
      split_ifs
      · exact hV.trans_nonneg t i j
      · exact div_nonneg (HMM.counts_nonneg (HMM.stepLaw_nonneg hM) i j)
          (Finset.sum_nonneg fun k _ => HMM.counts_nonneg (HMM.stepLaw_nonneg hM) i k)
    · simp only [hU.trans]
      split_ifs with h0
      · exact hV.trans_sum t i
      · rw [← Finset.sum_div]; exact div_self h0
  obtain ⟨-, s', e1', e2'⟩ := final_constant hR' hV' T hT hpos' rng'' key'' parallel'' h'
  exact ⟨s, s', _, _, e1, e2, e1', e2', HMM.baumWelch (P := M.trans 0) hV.init_nonneg hV.init_sum.le
    (fun t i j => by rw [hhom]) (hV.trans_nonneg 0) (fun i => (hV.trans_sum 0 i).le)
    (fun t j => lik_nonneg_of_represents hR t (by omega) j) he hU⟩

/-- **C101** (gradient). Along a curve of models with positive probabilities, the derivative of the objective built from
the returned states is the derivative of the log likelihood that the filter reports. -/
theorem discrete_fisher (M : ℝ → HMM (Fin (n + 1))) (θ : ℝ) (getInit : ℝ → Inp → Fin (n + 1) → Fl)
    (getTrans : ℝ → Inp → Fin (n + 1) → Fin (n + 1) → Fl) (getObs : ℝ → Inp → Fin (n + 1) → Fl)
    (hR : ∀ η, Represents (M η) (getInit η) (getTrans η) (getObs η) inputs) (hV : ∀ η, Valid (M η)) (T : ℕ)
    (hT : inputs.length = T + 1) (hT1 : 1 ≤ T) (hi : ∀ η i, 0 < (M η).init i) (ht : ∀ η t i j, 0 < (M η).trans t i j)
    (hl : ∀ η t j, 0 < (M η).lik t j) (di : ∀ i, DifferentiableAt ℝ (fun η => (M η).init i) θ)
    (dt : ∀ t i j, DifferentiableAt ℝ (fun η => (M η).trans t i j) θ)
    (dl : ∀ t j, DifferentiableAt ℝ (fun η => (M η).lik t j) θ) (rng rng' : Prng K) (key key' : Option K)
    (parallel parallel' : Bool) (dummy : Inp → Inp) (filterStates : List (FilterState n Inp))
    (h : (filter rng (buildFilter (K := K) (getInit θ) (getTrans θ) (getObs θ)) inputs parallel key).result
      = .ok filterStates) (states : List (SmootherState n Inp))
    (hs : (smoother rng' FilterState.modelInputs (fun u => .ok (dummy u))
        (buildSmoother dummy (getTrans θ)) filterStates none parallel' key').result = .ok states)
    (l : ℝ → ℝ)
    (hlog : ∀ η, ∃ fs s, (filter rng (buildFilter (K := K) (getInit η) (getTrans η) (getObs η)) inputs parallel
      key).result = .ok fs ∧ fs[T]? = some s ∧ s.logNormalizingConstant = fin (l η)) :
    ∃ γ ξ a, ReadsOff (getTrans θ) inputs T filterStates states γ ξ ∧
      HasDerivAt (fun η => (M η).objective T γ ξ) a θ ∧ HasDerivAt l a θ := by
  have hpos : ∀ η, RowsPositive (M η) T := fun η t _ i =>
    Finset.sum_pos (fun j _ => mul_pos (ht η t i j) (hl η t j)) Finset.univ_nonempty
  have hf : ∀ η t j, 0 < (M η).filterJoint t j := fun η t => by
    induction t with
    | zero => intro j; rw [HMM.filterJoint_zero]; exact hi η j
    | succ t ih =>
      intro j
      rw [HMM.filterJoint_succ]
      exact Finset.sum_pos (fun i _ => mul_pos (ih i) (mul_pos (ht η t i j) (hl η t j))) Finset.univ_nonempty
  have hreach : ∀ η, AllReachable (M η) T := fun η t _ j =>
    Finset.sum_pos (fun i _ => mul_pos (hf η t i) (ht η t i j)) Finset.univ_nonempty
  obtain ⟨a, h1, h2⟩ := HMM.fisher (T := T) M θ hi (fun η t => ht η t) (fun η t => hl η t) di (fun t => dt t) fun t => dl t
  refine ⟨_, _, a, discrete_pair_law (hR θ) (hV θ) T hT hT1 (hpos θ) (hreach θ) rng rng' key key' parallel parallel' dummy
    filterStates h states hs, h1, ?_⟩
  have e : l = fun η => Real.log ((M η).evidence T) := funext fun η => by
    obtain ⟨fs, s, g1, g2, g3⟩ := hlog η
    obtain ⟨-, s', e1, e2⟩ := final_constant (hR η) (hV η) T hT (hpos η) rng key parallel g1
    rw [g2, Option.some.injEq] at e1
    subst e1
    exact Fl.fin.inj (g3.symm.trans e2)
  rw [e]
  exact h2

/-- Any model with positive probabilities can be given by callbacks, with the times as inputs. -/
theorem exists_callbacks (M : HMM (Fin (n + 1))) (hl : ∀ t j, 0 < M.lik t j) (T : ℕ) :
    Represents M (fun _ : ℕ => fun j => fin (M.init j)) (fun u i j => fin (M.trans (u - 1) i j))
      (fun u j => fin (Real.log (M.lik (u - 1) j))) (List.range (T + 1)) := by
  have hu : ∀ t u, (List.range (T + 1))[t + 1]? = some u → u - 1 = t := fun t u h => by
    obtain ⟨h1, h2⟩ := List.getElem?_eq_some_iff.mp h
    rw [List.getElem_range] at h2
    omega
  refine ⟨fun _ _ _ => rfl, fun t u h i j => by rw [hu t u h], fun t u h j => ⟨trivial, ?_⟩⟩
  rw [hu t u h]
  exact Real.exp_log (hl t j)

/-- Non-vacuity: for every model with positive probabilities and one transition matrix, and every number of steps, all
hypotheses of `baum_welch_monotone` are met, and the update has positive probabilities again, so that it can be
repeated. -/
theorem exists_baum_welch (M : HMM (Fin (n + 1))) (hi : ∀ i, 0 < M.init i) (hi1 : ∑ i, M.init i = 1)
    (P : Fin (n + 1) → Fin (n + 1) → ℝ) (hP : ∀ t, M.trans t = P) (hP0 : ∀ i j, 0 < P i j) (hP1 : ∀ i, ∑ j, P i j = 1)
    (hl : ∀ t j, 0 < M.lik t j) (T : ℕ) (hT : 1 ≤ T) :
    Valid M ∧ RowsPositive M T ∧ AllReachable M T ∧
      ∃ (M' : HMM (Fin (n + 1))) (getInit : ℕ → Fin (n + 1) → Fl) (getTrans : ℕ → Fin (n + 1) → Fin (n + 1) → Fl)
        (getObs : ℕ → Fin (n + 1) → Fl) (getInit' : ℕ → Fin (n + 1) → Fl)
        (getTrans' : ℕ → Fin (n + 1) → Fin (n + 1) → Fl) (getObs' : ℕ → Fin (n + 1) → Fl),
        Represents M getInit getTrans getObs (List.range (T + 1)) ∧
        HMM.BaumWelchUpdate M M' (M.smoothLaw T 0) (M.stepLaw T) ∧
        Represents M' getInit' getTrans' getObs' (List.range (T + 1)) ∧ RowsPositive M' T ∧
        (∀ i, 0 < M'.init i) ∧ (∀ t i j, 0 < M'.trans t i j) ∧ ∀ t, M'.trans t = M'.trans 0 := by
  have hpos : ∀ x, 0 < M.joint T x := fun x =>
    mul_pos (hi _) (Finset.prod_pos fun t _ => mul_pos (by rw [hP]; exact hP0 _ _) (hl t _))
  have hM : ∀ x, 0 ≤ M.joint T x := fun x => (hpos x).le
  have hs : ∀ i, 0 < M.smoothLaw T 0 i := fun i =>
    lt_of_le_of_ne (HMM.smoothLaw_nonneg hM 0 i) (HMM.smoothLaw_ne_zero hM (x := fun _ => i) (hpos _).ne' 0).symm
  have hst : ∀ (t : Fin T) i j, 0 < M.stepLaw T t i j := fun t i j => by
    have h1 := HMM.stepLaw_ne_zero hM (x := fun k => if k = t.castSucc then i else j) (hpos _).ne' t
    have h2 : t.succ ≠ t.castSucc := fun h => by
      have := congrArg Fin.val h
      simp at this
    simp only [if_true, if_neg h2] at h1
    exact lt_of_le_of_ne (HMM.stepLaw_nonneg hM t i j) h1.symm
  have hc : ∀ i j, 0 < HMM.counts (M.stepLaw T) i j := fun i j =>
    Finset.sum_pos (fun t _ => hst t i j) ⟨⟨0, hT⟩, Finset.mem_univ _⟩
  have hcs : ∀ i, 0 < ∑ k, HMM.counts (M.stepLaw T) i k := fun i =>
    Finset.sum_pos (fun k _ => hc i k) Finset.univ_nonempty
  have hf : ∀ t j, 0 < M.filterJoint t j := fun t => by
    induction t with
    | zero => intro j; rw [HMM.filterJoint_zero]; exact hi j
    | succ t ih =>
      intro j
      rw [HMM.filterJoint_succ]
      exact Finset.sum_pos (fun i _ => mul_pos (ih i) (mul_pos (by rw [hP]; exact hP0 i j) (hl t j)))
        Finset.univ_nonempty
  obtain ⟨M', hM'⟩ : ∃ M' : HMM (Fin (n + 1)), M' = ⟨M.smoothLaw T 0, fun _ i j =>
      HMM.counts (M.stepLaw T) i j / ∑ k, HMM.counts (M.stepLaw T) i k, M.lik⟩ := ⟨_, rfl⟩
  have hl' : ∀ t j, 0 < M'.lik t j := by rw [hM']; exact hl
  refine ⟨⟨fun j => (hi j).le, hi1, fun t i j => by rw [hP]; exact (hP0 i j).le, fun t i => by rw [hP]; exact hP1 i⟩,
    fun t _ i => Finset.sum_pos (fun j _ => mul_pos (by rw [hP]; exact hP0 i j) (hl t j)) Finset.univ_nonempty,
    fun t _ j => Finset.sum_pos (fun i _ => mul_pos (hf t i) (by rw [hP]; exact hP0 i j)) Finset.univ_nonempty,
    M', _, _, _, _, _, _, exists_callbacks M hl T, ⟨fun i => by rw [hM'], fun t i j => ?_, fun t j => by rw [hM']⟩,
    exists_callbacks M' hl' T, ?_, fun i => by rw [hM']; exact hs i,
    fun _ i j => by rw [hM']; exact div_pos (hc i j) (hcs i), fun t => by rw [hM']⟩
  · rw [if_neg (hcs i).ne', hM']
  · refine fun t _ i => Finset.sum_pos (fun j _ => mul_pos ?_ (hl' t j)) Finset.univ_nonempty
    rw [hM']
    exact div_pos (hc i j) (hcs i)

end em

end Cuthbert.Discrete
