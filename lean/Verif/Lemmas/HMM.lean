import Verif.Spec.HMM
import Mathlib.Data.Matrix.Mul
import Mathlib.Tactic.Ring
import Mathlib.Algebra.BigOperators.Ring.Finset
import Mathlib.Data.Fin.Tuple.Basic

/-! Path sums as matrix products. -/

namespace Cuthbert.Spec.HMM

variable {X : Type*} [Fintype X] [DecidableEq X] (M : HMM X)

omit [DecidableEq X] in
theorem sum_path_succ (T : ℕ) (F : (Fin (T + 1 + 1) → X) → ℝ) :
    ∑ x : Fin (T + 1 + 1) → X, F x =
      ∑ l : X, ∑ x : Fin (T + 1) → X, F (Fin.snoc (α := fun _ => X) x l) := by
  rw [← Fintype.sum_prod_type']
  exact (Fintype.sum_equiv (Fin.snocEquiv (fun _ : Fin (T + 1 + 1) => X))
    (fun p => F (Fin.snoc (α := fun _ => X) p.2 p.1)) F (fun p => rfl)).symm

omit [Fintype X] [DecidableEq X] in
theorem joint_snoc (T : ℕ) (x : Fin (T + 1) → X) (l : X) :
    M.joint (T + 1) (Fin.snoc (α := fun _ => X) x l) =
      M.joint T x * (M.trans T (x (Fin.last T)) l * M.lik T l) := by
  unfold joint
  rw [Fin.prod_univ_castSucc]
  have h0 : (Fin.snoc (α := fun _ => X) x l : Fin (T + 1 + 1) → X) 0 = x 0 := by
    have : (0 : Fin (T + 1 + 1)) = Fin.castSucc 0 := rfl
    rw [this, Fin.snoc_castSucc]
  have h1 : ∀ t : Fin T, (Fin.snoc (α := fun _ => X) x l : Fin (T + 1 + 1) → X)
      (Fin.castSucc t).succ = x t.succ := by
    intro t
    rw [← Fin.castSucc_succ, Fin.snoc_castSucc]
  rw [h0]
  simp only [Fin.snoc_castSucc, h1, Fin.succ_last, Fin.snoc_last, Fin.val_castSucc, Fin.val_last]
  ring

/-- One transition followed by conditioning on its observation. -/
def stepMat (t : ℕ) : Matrix X X ℝ := fun i j => M.trans t i j * M.lik t j

theorem filterJoint_zero (k : X) : M.filterJoint 0 k = M.init k := by
  unfold filterJoint joint
  rw [← (Equiv.funUnique (Fin 1) X).symm.sum_comp]
  simp

theorem filterJoint_succ (T : ℕ) (k : X) :
    M.filterJoint (T + 1) k = ∑ j, M.filterJoint T j * M.stepMat T j k := by
  unfold filterJoint
  rw [sum_path_succ]
  simp only [joint_snoc, Fin.snoc_last]
  rw [Finset.sum_eq_single k]
  · simp only [if_true, Finset.sum_mul]
    rw [Finset.sum_comm]
    refine Finset.sum_congr rfl fun x _ => ?_
    rw [Finset.sum_eq_single (x (Fin.last T))]
    · simp [stepMat]
    · intro b _ hb; rw [if_neg (Ne.symm hb), zero_mul]
    · simp
  · intro b _ hb; simp [hb]
  · simp

theorem evidence_eq_sum (T : ℕ) : M.evidence T = ∑ k, M.filterJoint T k := by
  unfold evidence filterJoint
  rw [Finset.sum_comm]
  refine Finset.sum_congr rfl fun x _ => ?_
  simp

/-- Two-time joint: `p(x_t = k, x_T = l, y_1..y_T)`. -/
def pairJoint (T : ℕ) (t : Fin (T + 1)) (k l : X) : ℝ :=
  ∑ x : Fin (T + 1) → X, if x t = k then (if x (Fin.last T) = l then M.joint T x else 0) else 0

theorem smoothJoint_eq_sum (T : ℕ) (t : Fin (T + 1)) (k : X) :
    M.smoothJoint T t k = ∑ l, M.pairJoint T t k l := by
  unfold smoothJoint pairJoint
  rw [Finset.sum_comm]
  refine Finset.sum_congr rfl fun x _ => ?_
  by_cases h : x t = k <;> simp [h]

theorem pairJoint_last (T : ℕ) (k l : X) :
    M.pairJoint T (Fin.last T) k l = if k = l then M.filterJoint T k else 0 := by
  unfold pairJoint filterJoint
  split_ifs with h
  · subst h
    refine Finset.sum_congr rfl fun x _ => ?_
    by_cases h : x (Fin.last T) = k <;> simp [h]
  · refine Finset.sum_eq_zero fun x _ => ?_
    by_cases h' : x (Fin.last T) = k
    · rw [if_pos h', if_neg (by rw [h']; exact h)]
    · rw [if_neg h']

theorem pairJoint_succ (T : ℕ) (t : Fin (T + 1)) (k l : X) :
    M.pairJoint (T + 1) t.castSucc k l = ∑ j, M.pairJoint T t k j * M.stepMat T j l := by
  unfold pairJoint
  rw [sum_path_succ]
  simp only [joint_snoc, Fin.snoc_last, Fin.snoc_castSucc]
  rw [Finset.sum_eq_single l]
  · simp only [if_true, Finset.sum_mul]
    rw [Finset.sum_comm]
    refine Finset.sum_congr rfl fun x _ => ?_
    by_cases h : x t = k
    · simp only [h, if_true]
      rw [Finset.sum_eq_single (x (Fin.last T))]
      · simp [stepMat]
      · intro b _ hb; rw [if_neg (Ne.symm hb), zero_mul]
      · simp
    · simp [h]
  · intro b _ hb; simp [hb]
  · simp

/-- Product of `m` step matrices starting at time `t`. -/
def stepsFrom (t : ℕ) : ℕ → Matrix X X ℝ
  | 0 => 1
  | m + 1 => stepsFrom t m * M.stepMat (t + m)

theorem stepsFrom_succ_left (t m : ℕ) :
    M.stepsFrom t (m + 1) = M.stepMat t * M.stepsFrom (t + 1) m := by
  induction m with
  | zero => simp [stepsFrom]
  | succ m ih =>
    rw [stepsFrom, ih, stepsFrom, Matrix.mul_assoc]
    congr 3
    omega

theorem pairJoint_eq (t m : ℕ) (k l : X) :
    M.pairJoint (t + m) ⟨t, by omega⟩ k l = M.filterJoint t k * M.stepsFrom t m k l := by
  induction m generalizing l with
  | zero =>
    refine (M.pairJoint_last t k l).trans ?_
    simp only [stepsFrom, Matrix.one_apply]
    split_ifs <;> simp
  | succ m ih =>
    refine (M.pairJoint_succ (t + m) ⟨t, by omega⟩ k l).trans ?_
    simp only [ih, stepsFrom, Matrix.mul_apply, Finset.mul_sum]
    refine Finset.sum_congr rfl fun j _ => ?_
    ring

/-- Likelihood of the future observations `y_{t+1}..y_{t+m}` given the state at time `t`. -/
def future (t m : ℕ) (k : X) : ℝ := ∑ l, M.stepsFrom t m k l

theorem future_zero (t : ℕ) (k : X) : M.future t 0 k = 1 := by
  simp [future, stepsFrom, Matrix.one_apply]

theorem future_succ (t m : ℕ) (k : X) :
    M.future t (m + 1) k = ∑ j, M.stepMat t k j * M.future (t + 1) m j := by
  unfold future
  rw [stepsFrom_succ_left]
  simp only [Matrix.mul_apply, Finset.mul_sum]
  rw [Finset.sum_comm]

theorem smoothJoint_eq (t m : ℕ) (k : X) :
    M.smoothJoint (t + m) ⟨t, by omega⟩ k = M.filterJoint t k * M.future t m k := by
  rw [smoothJoint_eq_sum]
  simp only [pairJoint_eq, future, Finset.mul_sum]

end Cuthbert.Spec.HMM
