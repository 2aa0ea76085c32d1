import Verif.Spec.Near
import Mathlib.Analysis.SpecialFunctions.Log.Basic
import Mathlib.Algebra.BigOperators.Field
import Mathlib.Algebra.Order.BigOperators.Ring.Finset
import Mathlib.Tactic.Linarith
import Mathlib.Tactic.Positivity

/-!
# Relative errors
-/

namespace Cuthbert.Near

variable {η η' a a' b b' c : ℝ}

theorem nonneg (h : Near η a b) (ha : 0 ≤ a) : 0 ≤ b := (mul_nonneg (Real.exp_pos _).le ha).trans h.1

theorem pos (h : Near η a b) (ha : 0 < a) : 0 < b := (mul_pos (Real.exp_pos _) ha).trans_le h.1

theorem pos_iff (h : Near η a b) : 0 < a ↔ 0 < b := by
  refine ⟨h.pos, fun hb => ?_⟩
  have h1 := hb.trans_le h.2
  exact (mul_pos_iff_of_pos_left (Real.exp_pos η)).mp h1

theorem mono (h : Near η a b) (ha : 0 ≤ a) (hη : η ≤ η') : Near η' a b :=
  ⟨(mul_le_mul_of_nonneg_right (Real.exp_le_exp.mpr (by linarith)) ha).trans h.1,
    h.2.trans (mul_le_mul_of_nonneg_right (Real.exp_le_exp.mpr hη) ha)⟩

theorem refl (a : ℝ) : Near 0 a a := by simp [Near]

theorem trans (h : Near η a b) (h' : Near η' b c) : Near (η + η') a c := by
  constructor
  · refine le_trans ?_ h'.1
    rw [neg_add, add_comm, Real.exp_add, mul_assoc]
    exact mul_le_mul_of_nonneg_left h.1 (Real.exp_pos _).le
  · refine h'.2.trans ?_
    rw [add_comm, Real.exp_add, mul_assoc]
    exact mul_le_mul_of_nonneg_left h.2 (Real.exp_pos _).le

theorem symm (h : Near η a b) : Near η b a := by
  have he : Real.exp (-η) * Real.exp η = 1 := by rw [← Real.exp_add]; simp
  constructor
  · have := mul_le_mul_of_nonneg_left h.2 (Real.exp_pos (-η)).le
    rwa [← mul_assoc, he, one_mul] at this
  · have := mul_le_mul_of_nonneg_left h.1 (Real.exp_pos η).le
    rwa [← mul_assoc, mul_comm (Real.exp η), he, one_mul] at this

theorem mul (h : Near η a b) (h' : Near η' a' b') (ha : 0 ≤ a) (ha' : 0 ≤ a') : Near (η + η') (a * a') (b * b') := by
  constructor
  · rw [neg_add, Real.exp_add, mul_mul_mul_comm]
    exact mul_le_mul h.1 h'.1 (mul_nonneg (Real.exp_pos _).le ha') (h.nonneg ha)
  · rw [Real.exp_add, mul_mul_mul_comm]
    exact mul_le_mul h.2 h'.2 (h'.nonneg ha') (mul_nonneg (Real.exp_pos _).le ha)

theorem const_mul (h : Near η a b) (hc : 0 ≤ c) : Near η (c * a) (c * b) := by
  constructor
  · rw [mul_left_comm]; exact mul_le_mul_of_nonneg_left h.1 hc
  · rw [mul_left_comm]; exact mul_le_mul_of_nonneg_left h.2 hc

theorem mul_const (h : Near η a b) (hc : 0 ≤ c) : Near η (a * c) (b * c) := by
  rw [mul_comm a, mul_comm b]; exact h.const_mul hc

theorem div_const (h : Near η a b) (hc : 0 ≤ c) : Near η (a / c) (b / c) := by
  rw [div_eq_mul_inv, div_eq_mul_inv]; exact h.mul_const (inv_nonneg.mpr hc)

theorem inv (h : Near η a b) (ha : 0 < a) : Near η a⁻¹ b⁻¹ := by
  have hb := h.pos ha
  constructor
  · rw [Real.exp_neg, ← mul_inv]
    exact inv_anti₀ hb h.2
  · have := inv_anti₀ (mul_pos (Real.exp_pos _) ha) h.1
    rwa [mul_inv, ← Real.exp_neg, neg_neg] at this

theorem sum {ι : Type*} {s : Finset ι} {f g : ι → ℝ} (h : ∀ i ∈ s, Near η (f i) (g i)) :
    Near η (∑ i ∈ s, f i) (∑ i ∈ s, g i) := by
  constructor
  · rw [Finset.mul_sum]; exact Finset.sum_le_sum fun i hi => (h i hi).1
  · rw [Finset.mul_sum]; exact Finset.sum_le_sum fun i hi => (h i hi).2

theorem log (h : Near η a b) (ha : 0 < a) : |Real.log b - Real.log a| ≤ η := by
  have h1 := Real.log_le_log (mul_pos (Real.exp_pos _) ha) h.1
  have h2 := Real.log_le_log (h.pos ha) h.2
  rw [Real.log_mul (Real.exp_ne_zero _) ha.ne', Real.log_exp] at h1 h2
  rw [abs_le]
  constructor <;> linarith

theorem exp {x y : ℝ} (h : |y - x| ≤ η) : Near η (Real.exp x) (Real.exp y) := by
  rw [abs_le] at h
  constructor
  · rw [← Real.exp_add]; exact Real.exp_le_exp.mpr (by linarith)
  · rw [← Real.exp_add]; exact Real.exp_le_exp.mpr (by linarith)

/-- A relative error in the usual sense. -/
theorem of_abs {ε : ℝ} (h0 : 0 ≤ ε) (h1 : ε ≤ 1 / 2) (ha : 0 ≤ a) (h : |b - a| ≤ ε * a) : Near (2 * ε) a b := by
  rw [abs_le] at h
  have e1 := Real.add_one_le_exp (2 * ε)
  constructor
  · have h2 : Real.exp (-(2 * ε)) ≤ 1 - ε := by
      rw [Real.exp_neg]
      refine (inv_anti₀ (by linarith) e1).trans ?_
      rw [inv_le_iff_one_le_mul₀ (by linarith)]
      nlinarith
    exact (mul_le_mul_of_nonneg_right h2 ha).trans (by linarith)
  · refine le_trans ?_ (mul_le_mul_of_nonneg_right e1 ha)
    nlinarith

/-- A small `η` bounds the relative error in the usual sense. -/
theorem abs_le (h : Near η a b) (ha : 0 ≤ a) (h0 : 0 ≤ η) (h1 : η ≤ 1 / 2) : |b - a| ≤ 2 * η * a := by
  have e1 := Real.add_one_le_exp (-η)
  have e2 : Real.exp η ≤ 1 + 2 * η := by
    have h3 : Real.exp η = (Real.exp (-η))⁻¹ := by rw [Real.exp_neg, inv_inv]
    rw [h3]
    refine (inv_anti₀ (by linarith) e1).trans ?_
    rw [inv_le_iff_one_le_mul₀ (by linarith)]
    nlinarith
  have h3 := mul_le_mul_of_nonneg_right e1 ha
  have h4 := mul_le_mul_of_nonneg_right e2 ha
  rw [_root_.abs_le]
  constructor
  · nlinarith [h.1, mul_nonneg h0 ha]
  · linarith [h.2]

end Cuthbert.Near
