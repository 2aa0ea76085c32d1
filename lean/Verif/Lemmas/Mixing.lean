import Verif.Lemmas.HMM
import Mathlib.Tactic

/-!
# Nonnegative matrices with comparable rows contract ratios
-/

namespace Cuthbert.Spec
open Finset

variable {X : Type*} [Fintype X]

/-- If all entries of `S` lie between `ε c_i d_j` and `c_i d_j`, multiplying `F` and `h` by `S` shrinks
the interval of the ratios `F / h` by the factor `1 - ε`. -/
theorem contract_mulVec (S : Matrix X X ℝ) (c d : X → ℝ) (ε : ℝ) (hε : 0 ≤ ε)
    (hc : ∀ i, 0 ≤ c i) (hd : ∀ i, 0 ≤ d i) (hlo : ∀ i j, ε * (c i * d j) ≤ S i j)
    (hhi : ∀ i j, S i j ≤ c i * d j) (h F : X → ℝ) (a b : ℝ) (hh : ∀ i, 0 ≤ h i)
    (ha : ∀ i, a * h i ≤ F i) (hb : ∀ i, F i ≤ b * h i) :
    ∃ a' b', b' - a' = (1 - ε) * (b - a) ∧ (∀ i, 0 ≤ S.mulVec h i) ∧
      (∀ i, a' * S.mulVec h i ≤ S.mulVec F i) ∧ ∀ i, S.mulVec F i ≤ b' * S.mulVec h i := by
  have hS : ∀ i j, 0 ≤ S i j := fun i j =>
    (mul_nonneg hε (mul_nonneg (hc i) (hd j))).trans (hlo i j)
  have hSh : ∀ i, 0 ≤ S.mulVec h i := fun i => by
    simp only [Matrix.mulVec, dotProduct]
    exact sum_nonneg fun j _ => mul_nonneg (hS i j) (hh j)
  obtain ⟨H, hH⟩ : ∃ H, H = ∑ j, d j * h j := ⟨_, rfl⟩
  obtain ⟨P, hP⟩ : ∃ P, P = ∑ j, d j * (F j - a * h j) := ⟨_, rfl⟩
  obtain ⟨Q, hQ⟩ : ∃ Q, Q = ∑ j, d j * (b * h j - F j) := ⟨_, rfl⟩
  have hP0 : 0 ≤ P := by
    rw [hP]; exact sum_nonneg fun j _ => mul_nonneg (hd j) (sub_nonneg.2 (ha j))
  have hQ0 : 0 ≤ Q := by
    rw [hQ]; exact sum_nonneg fun j _ => mul_nonneg (hd j) (sub_nonneg.2 (hb j))
  have hH0 : 0 ≤ H := by
    rw [hH]; exact sum_nonneg fun j _ => mul_nonneg (hd j) (hh j)
  have hPQ : P + Q = (b - a) * H := by
    rw [hP, hQ, hH, ← sum_add_distrib, mul_sum]
    exact sum_congr rfl fun j _ => by ring
  have hup : ∀ i, S.mulVec h i ≤ c i * H := fun i => by
    simp only [Matrix.mulVec, dotProduct, hH, mul_sum]
    exact sum_le_sum fun j _ => by
      rw [← mul_assoc]; exact mul_le_mul_of_nonneg_right (hhi i j) (hh j)
  have hl1 : ∀ i, a * S.mulVec h i + ε * (c i * P) ≤ S.mulVec F i := fun i => by
    simp only [Matrix.mulVec, dotProduct, hP, mul_sum]
    rw [← sum_add_distrib]
    refine sum_le_sum fun j _ => ?_
    have := mul_le_mul_of_nonneg_right (hlo i j) (sub_nonneg.2 (ha j))
    nlinarith
  have hl2 : ∀ i, S.mulVec F i + ε * (c i * Q) ≤ b * S.mulVec h i := fun i => by
    simp only [Matrix.mulVec, dotProduct, hQ, mul_sum]
    rw [← sum_add_distrib]
    refine sum_le_sum fun j _ => ?_
    have := mul_le_mul_of_nonneg_right (hlo i j) (sub_nonneg.2 (hb j))
    nlinarith
  rcases hH0.eq_or_lt with h0 | h0
  · have hz : ∀ i, S.mulVec h i = 0 := fun i =>
      le_antisymm (by simpa [← h0] using hup i) (hSh i)
    have hz1 : P = 0 := by rw [← h0] at hPQ; linarith
    have hz2 : Q = 0 := by rw [← h0] at hPQ; linarith
    refine ⟨a, a + (1 - ε) * (b - a), by ring, hSh, fun i => ?_, fun i => ?_⟩
    · have := hl1 i; rw [hz, hz1] at this; rw [hz]; linarith
    · have := hl2 i; rw [hz, hz2] at this; rw [hz]; linarith
  · refine ⟨a + ε * (P / H), b - ε * (Q / H), ?_, hSh, fun i => ?_, fun i => ?_⟩
    · have : P / H + Q / H = b - a := by rw [← add_div, hPQ, mul_div_cancel_right₀ _ h0.ne']
      linear_combination (-ε) * this
    · have h1 : P / H * S.mulVec h i ≤ c i * P := by
        refine (mul_le_mul_of_nonneg_left (hup i) (div_nonneg hP0 hH0)).trans (le_of_eq ?_)
        field_simp
      have := mul_le_mul_of_nonneg_left h1 hε
      nlinarith [hl1 i]
    · have h1 : Q / H * S.mulVec h i ≤ c i * Q := by
        refine (mul_le_mul_of_nonneg_left (hup i) (div_nonneg hQ0 hH0)).trans (le_of_eq ?_)
        field_simp
      have := mul_le_mul_of_nonneg_left h1 hε
      nlinarith [hl2 i]

/-- Two weighted means of ratios that lie in an interval differ by at most its length. -/
theorem ratio_dist (α α' h F : X → ℝ) (a b : ℝ) (hα : ∀ i, 0 ≤ α i) (hα' : ∀ i, 0 ≤ α' i)
    (ha : ∀ i, a * h i ≤ F i) (hb : ∀ i, F i ≤ b * h i)
    (hpos : 0 < ∑ i, α i * h i) (hpos' : 0 < ∑ i, α' i * h i) :
    |(∑ i, α i * F i) / (∑ i, α i * h i) - (∑ i, α' i * F i) / ∑ i, α' i * h i| ≤ b - a := by
  have key : ∀ β : X → ℝ, (∀ i, 0 ≤ β i) → 0 < ∑ i, β i * h i →
      a ≤ (∑ i, β i * F i) / (∑ i, β i * h i) ∧ (∑ i, β i * F i) / (∑ i, β i * h i) ≤ b := by
    intro β hβ hp
    constructor
    · rw [le_div_iff₀ hp, mul_sum]
      exact sum_le_sum fun i _ => by nlinarith [hβ i, ha i]
    · rw [div_le_iff₀ hp, mul_sum]
      exact sum_le_sum fun i _ => by nlinarith [hβ i, hb i]
  obtain ⟨h1, h2⟩ := key α hα hpos
  obtain ⟨h3, h4⟩ := key α' hα' hpos'
  rw [abs_le]; constructor <;> linarith

/-- A distance between vectors from bounds on all averages of functions with values in `[-1, 1]`. -/
theorem l1_of_tests (p q : X → ℝ) (B : ℝ)
    (h : ∀ f : X → ℝ, (∀ k, |f k| ≤ 1) → |∑ k, f k * p k - ∑ k, f k * q k| ≤ B) :
    ∑ k, |p k - q k| ≤ B := by
  refine le_trans (le_of_eq ?_) ((le_abs_self _).trans
    (h (fun k => if 0 ≤ p k - q k then 1 else -1) fun k => by split_ifs <;> simp))
  rw [← sum_sub_distrib]
  refine sum_congr rfl fun k _ => ?_
  split_ifs with hk
  · rw [abs_of_nonneg hk]; ring
  · rw [abs_of_neg (not_le.1 hk)]; ring

/-- The strong mixing condition on the transitions from the times `lo ≤ t < hi`: up to the factor `ε`, the
probability of moving to a state does not depend on where one comes from. -/
def HMM.Mixes (M : HMM X) (ε : ℝ) (lo hi : ℕ) : Prop :=
  ∀ t, lo ≤ t → t < hi → ∃ ν : X → ℝ, ∀ i j, ε * ν j ≤ M.trans t i j ∧ M.trans t i j ≤ ν j

/-- The models have the same transitions and the same data likelihoods at the steps `lo ≤ t < hi`. -/
def HMM.Agree (M M' : HMM X) (lo hi : ℕ) : Prop :=
  ∀ t, lo ≤ t → t < hi → M.trans t = M'.trans t ∧ M.lik t = M'.lik t

variable [DecidableEq X] {M M' : HMM X} {ε : ℝ}

theorem HMM.Agree.stepsFrom {r : ℕ} : ∀ {m : ℕ}, M.Agree M' r (r + m) →
    M.stepsFrom r m = M'.stepsFrom r m
  | 0, _ => rfl
  | m + 1, h => by
    have e : M.stepMat (r + m) = M'.stepMat (r + m) := by
      obtain ⟨e1, e2⟩ := h (r + m) (by omega) (by omega)
      unfold HMM.stepMat; rw [e1, e2]
    rw [HMM.stepsFrom, HMM.stepsFrom,
      HMM.Agree.stepsFrom (m := m) fun t h1 h2 => h t h1 (by omega), e]

theorem contract_stepsFrom (hε : 0 ≤ ε) (hε1 : ε ≤ 1) [Nonempty X]
    (hnn : ∀ t i j, 0 ≤ M.trans t i j) {m : ℕ} :
    ∀ {r : ℕ}, (∀ t, r ≤ t → t < r + m → ∀ j, 0 ≤ M.lik t j) → M.Mixes ε r (r + m) → ∀ (h F : X → ℝ) (a b : ℝ), a ≤ b → (∀ i, 0 ≤ h i) →
    (∀ i, a * h i ≤ F i) → (∀ i, F i ≤ b * h i) →
    ∃ a' b', a' ≤ b' ∧ b' - a' = (1 - ε) ^ m * (b - a) ∧ (∀ i, 0 ≤ (M.stepsFrom r m).mulVec h i) ∧
      (∀ i, a' * (M.stepsFrom r m).mulVec h i ≤ (M.stepsFrom r m).mulVec F i) ∧
      ∀ i, (M.stepsFrom r m).mulVec F i ≤ b' * (M.stepsFrom r m).mulVec h i := by
  induction m with
  | zero =>
    intro r _ _ h F a b hab hh ha hb
    exact ⟨a, b, hab, by simp, by simpa [HMM.stepsFrom] using hh, by simpa [HMM.stepsFrom] using ha,
      by simpa [HMM.stepsFrom] using hb⟩
  | succ m ih =>
    intro r hlik hmix h F a b hab hh ha hb
    obtain ⟨a1, b1, h1, h2, h3, h4, h5⟩ := ih (r := r + 1)
      (fun t t1 t2 => hlik t (by omega) (by omega))
      (fun t t1 t2 => hmix t (by omega) (by omega)) h F a b hab hh ha hb
    obtain ⟨ν, hν⟩ := hmix r le_rfl (by omega)
    have hν0 : ∀ j, 0 ≤ ν j := fun j => (hnn r (Classical.arbitrary X) j).trans (hν _ j).2
    obtain ⟨a2, b2, g1, g2, g3, g4⟩ := contract_mulVec (M.stepMat r) (fun _ => 1)
      (fun j => ν j * M.lik r j) ε hε (fun _ => zero_le_one)
      (fun j => mul_nonneg (hν0 j) (hlik r le_rfl (by omega) j))
      (fun i j => by
        have := mul_le_mul_of_nonneg_right (hν i j).1 (hlik r le_rfl (by omega) j)
        simpa [HMM.stepMat, mul_assoc] using this)
      (fun i j => by
        have := mul_le_mul_of_nonneg_right (hν i j).2 (hlik r le_rfl (by omega) j)
        simpa [HMM.stepMat, mul_assoc] using this) _ _ a1 b1 h3 h4 h5
    rw [HMM.stepsFrom_succ_left, ← Matrix.mulVec_mulVec, ← Matrix.mulVec_mulVec]
    refine ⟨a2, b2, ?_, by rw [g1, h2]; ring, g2, g3, g4⟩
    have : 0 ≤ (1 - ε) * (b1 - a1) := mul_nonneg (by linarith) (by linarith)
    linarith

theorem contract_stepsFrom_left (hε : 0 ≤ ε) (hε1 : ε ≤ 1) [Nonempty X]
    (hnn : ∀ t i j, 0 ≤ M.trans t i j) {r m : ℕ}
    (hlik : ∀ t, r ≤ t → t < r + m → ∀ j, 0 ≤ M.lik t j) (hmix : M.Mixes ε r (r + m))
    (h F : X → ℝ) (a b : ℝ) (hab : a ≤ b) (hh : ∀ i, 0 ≤ h i)
    (ha : ∀ i, a * h i ≤ F i) (hb : ∀ i, F i ≤ b * h i) :
    ∃ a' b', a' ≤ b' ∧ b' - a' = (1 - ε) ^ m * (b - a) ∧
      (∀ i, 0 ≤ (M.stepsFrom r m).transpose.mulVec h i) ∧
      (∀ i, a' * (M.stepsFrom r m).transpose.mulVec h i ≤ (M.stepsFrom r m).transpose.mulVec F i) ∧
      ∀ i, (M.stepsFrom r m).transpose.mulVec F i ≤ b' * (M.stepsFrom r m).transpose.mulVec h i := by
  induction m with
  | zero =>
    exact ⟨a, b, hab, by simp, by simpa [HMM.stepsFrom] using hh, by simpa [HMM.stepsFrom] using ha,
      by simpa [HMM.stepsFrom] using hb⟩
  | succ m ih =>
    obtain ⟨a1, b1, h1, h2, h3, h4, h5⟩ := ih (fun t t1 t2 => hlik t (by omega) (by omega)) (fun t t1 t2 => hmix t (by omega) (by omega))
    obtain ⟨ν, hν⟩ := hmix (r + m) (by omega) (by omega)
    have hν0 : ∀ j, 0 ≤ ν j := fun j => (hnn (r + m) (Classical.arbitrary X) j).trans (hν _ j).2
    obtain ⟨a2, b2, g1, g2, g3, g4⟩ := contract_mulVec (M.stepMat (r + m)).transpose
      (fun j => ν j * M.lik (r + m) j) (fun _ => 1) ε hε
      (fun j => mul_nonneg (hν0 j) (hlik _ (by omega) (by omega) j)) (fun _ => zero_le_one)
      (fun j i => by
        have := mul_le_mul_of_nonneg_right (hν i j).1 (hlik (r + m) (by omega) (by omega) j)
        simpa [HMM.stepMat, mul_assoc] using this)
      (fun j i => by
        have := mul_le_mul_of_nonneg_right (hν i j).2 (hlik (r + m) (by omega) (by omega) j)
        simpa [HMM.stepMat, mul_assoc] using this) _ _ a1 b1 h3 h4 h5
    rw [HMM.stepsFrom, Matrix.transpose_mul, ← Matrix.mulVec_mulVec, ← Matrix.mulVec_mulVec]
    refine ⟨a2, b2, ?_, by rw [g1, h2]; ring, g2, g3, g4⟩
    have : 0 ≤ (1 - ε) * (b1 - a1) := mul_nonneg (by linarith) (by linarith)
    linarith

omit [DecidableEq X] in
theorem swap_mulVec (A : Matrix X X ℝ) (α g : X → ℝ) :
    ∑ i, α i * A.mulVec g i = ∑ k, A.transpose.mulVec α k * g k := by
  simp only [Matrix.mulVec, dotProduct, Matrix.transpose_apply, mul_sum, sum_mul]
  rw [sum_comm]
  exact sum_congr rfl fun i _ => sum_congr rfl fun j _ => by ring

/-- The law at a middle time from weights `α` at the start, steps `A` up to the middle, steps `B` after it and
weights `w` at the end. -/
noncomputable def midLaw (A B : Matrix X X ℝ) (α w : X → ℝ) (k : X) : ℝ :=
  A.transpose.mulVec α k * B.mulVec w k / ∑ l, A.transpose.mulVec α l * B.mulVec w l

omit [DecidableEq X] in
theorem mean_midLaw_past (A B : Matrix X X ℝ) (α w f : X → ℝ) :
    ∑ k, f k * midLaw A B α w k = (∑ i, α i * A.mulVec (fun k => f k * B.mulVec w k) i) /
      ∑ i, α i * A.mulVec (fun k => B.mulVec w k) i := by
  rw [swap_mulVec, swap_mulVec, sum_div]
  exact sum_congr rfl fun k _ => by unfold midLaw; ring

omit [DecidableEq X] in
theorem mean_midLaw_future (A B : Matrix X X ℝ) (α w f : X → ℝ) :
    ∑ k, f k * midLaw A B α w k =
      (∑ i, w i * B.transpose.mulVec (fun k => f k * A.transpose.mulVec α k) i) /
      ∑ i, w i * B.transpose.mulVec (fun k => A.transpose.mulVec α k) i := by
  rw [swap_mulVec, swap_mulVec, sum_div, Matrix.transpose_transpose]
  refine sum_congr rfl fun k _ => ?_
  unfold midLaw
  simp only [mul_comm (B.mulVec w _)]
  ring

/-- Changing the weights at the start changes the law `a` steps later by an amount that decays geometrically. -/
theorem midLaw_dist_past (hε : 0 ≤ ε) (hε1 : ε ≤ 1) [Nonempty X] (hnn : ∀ t i j, 0 ≤ M.trans t i j) (r a : ℕ)
    (hlik : ∀ t, r ≤ t → t < r + a → ∀ j, 0 ≤ M.lik t j) (hmix : M.Mixes ε r (r + a)) (B : Matrix X X ℝ)
    (α α' w : X → ℝ) (hα : ∀ i, 0 ≤ α i) (hα' : ∀ i, 0 ≤ α' i) (hB : ∀ i, 0 ≤ B.mulVec w i)
    (hp : 0 < ∑ l, (M.stepsFrom r a).transpose.mulVec α l * B.mulVec w l)
    (hp' : 0 < ∑ l, (M.stepsFrom r a).transpose.mulVec α' l * B.mulVec w l) :
    ∑ k, |midLaw (M.stepsFrom r a) B α w k - midLaw (M.stepsFrom r a) B α' w k| ≤ 2 * (1 - ε) ^ a := by
  refine l1_of_tests _ _ _ fun f hf => ?_
  obtain ⟨a', b', -, c2, c3, c4, c5⟩ := contract_stepsFrom hε hε1 hnn hlik hmix
    (fun k => B.mulVec w k) (fun k => f k * B.mulVec w k) (-1) 1 (by norm_num) hB
    (fun k => mul_le_mul_of_nonneg_right (abs_le.1 (hf k)).1 (hB k))
    (fun k => mul_le_mul_of_nonneg_right (abs_le.1 (hf k)).2 (hB k))
  rw [mean_midLaw_past, mean_midLaw_past]
  refine (ratio_dist α α' _ _ a' b' hα hα' c4 c5 (by rw [swap_mulVec]; exact hp)
    (by rw [swap_mulVec]; exact hp')).trans (le_of_eq ?_)
  rw [c2]; ring

/-- Changing the weights at the end changes the law `b` steps earlier by an amount that decays geometrically. -/
theorem midLaw_dist_future (hε : 0 ≤ ε) (hε1 : ε ≤ 1) [Nonempty X] (hnn : ∀ t i j, 0 ≤ M.trans t i j) (r b : ℕ)
    (hlik : ∀ t, r ≤ t → t < r + b → ∀ j, 0 ≤ M.lik t j) (hmix : M.Mixes ε r (r + b)) (A : Matrix X X ℝ)
    (α w w' : X → ℝ) (hA : ∀ i, 0 ≤ A.transpose.mulVec α i) (hw : ∀ i, 0 ≤ w i) (hw' : ∀ i, 0 ≤ w' i)
    (hp : 0 < ∑ l, A.transpose.mulVec α l * (M.stepsFrom r b).mulVec w l)
    (hp' : 0 < ∑ l, A.transpose.mulVec α l * (M.stepsFrom r b).mulVec w' l) :
    ∑ k, |midLaw A (M.stepsFrom r b) α w k - midLaw A (M.stepsFrom r b) α w' k| ≤ 2 * (1 - ε) ^ b := by
  refine l1_of_tests _ _ _ fun f hf => ?_
  obtain ⟨a', b', -, c2, c3, c4, c5⟩ := contract_stepsFrom_left hε hε1 hnn hlik hmix
    (fun k => A.transpose.mulVec α k) (fun k => f k * A.transpose.mulVec α k) (-1) 1 (by norm_num) hA
    (fun k => mul_le_mul_of_nonneg_right (abs_le.1 (hf k)).1 (hA k))
    (fun k => mul_le_mul_of_nonneg_right (abs_le.1 (hf k)).2 (hA k))
  rw [mean_midLaw_future, mean_midLaw_future]
  have sw : ∀ v : X → ℝ, ∑ i, v i * (M.stepsFrom r b).transpose.mulVec (fun k => A.transpose.mulVec α k) i =
      ∑ l, A.transpose.mulVec α l * (M.stepsFrom r b).mulVec v l := by
    intro v
    rw [swap_mulVec, Matrix.transpose_transpose]
    exact sum_congr rfl fun _ _ => mul_comm _ _
  refine (ratio_dist w w' _ _ a' b' hw hw' c4 c5 (by rw [sw]; exact hp) (by rw [sw]; exact hp')).trans
    (le_of_eq ?_)
  rw [c2]; ring

end Cuthbert.Spec
