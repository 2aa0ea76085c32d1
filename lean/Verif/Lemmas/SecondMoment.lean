import Mathlib.Probability.Independence.Integration
import Verif.Lemmas.SMCLaw

/-!
# Second moments of weighted sums
-/

namespace Cuthbert
open MeasureTheory Set
open scoped ENNReal

noncomputable section

/-- The second moment of a weighted sum whose terms are bounded by `C` and uncorrelated except for the pairs outside
`r`. -/
theorem lintegral_sq_le {Ω ι : Type*} [MeasurableSpace Ω] [Fintype ι] {μ : Measure Ω} [IsProbabilityMeasure μ]
    (v e : ι → ℝ≥0∞) {T : ι → Ω → ℝ≥0∞} (hT : ∀ m, Measurable (T m)) {C : ℝ≥0∞} (hC : ∀ m w, T m w ≤ C)
    (r : ι → ι → Prop) [∀ m m', Decidable (r m m')]
    (hr : ∀ m m', r m m' → ∫⁻ w, T m w * T m' w ∂μ ≤ e m * e m') :
    ∫⁻ w, (∑ m, v m * T m w) ^ 2 ∂μ ≤
      (∑ m, v m * e m) ^ 2 + C ^ 2 * ∑ m, ∑ m', if r m m' then 0 else v m * v m' := by
  have h1 : ∀ w, (∑ m, v m * T m w) ^ 2 = ∑ m, ∑ m', v m * v m' * (T m w * T m' w) := by
    intro w
    rw [sq, Finset.sum_mul_sum]
    exact Finset.sum_congr rfl fun m _ => Finset.sum_congr rfl fun m' _ => by ring
  have hm : ∀ m m', Measurable fun w => T m w * T m' w := fun m m' => (hT m).mul (hT m')
  simp only [h1]
  rw [lintegral_finsetSum' _ fun m _ => (Finset.measurable_sum _ fun m' _ => (hm m m').const_mul _).aemeasurable]
  have h2 : ∀ m, ∫⁻ w, ∑ m', v m * v m' * (T m w * T m' w) ∂μ =
      ∑ m', v m * v m' * ∫⁻ w, T m w * T m' w ∂μ := by
    intro m
    rw [lintegral_finsetSum' _ fun m' _ => ((hm m m').const_mul _).aemeasurable]
    exact Finset.sum_congr rfl fun m' _ => lintegral_const_mul _ (hm m m')
  simp only [h2]
  have h3 : (∑ m, v m * e m) ^ 2 = ∑ m, ∑ m', v m * v m' * (e m * e m') := by
    rw [sq, Finset.sum_mul_sum]
    exact Finset.sum_congr rfl fun m _ => Finset.sum_congr rfl fun m' _ => by ring
  rw [h3, Finset.mul_sum, ← Finset.sum_add_distrib]
  refine Finset.sum_le_sum fun m _ => ?_
  rw [Finset.mul_sum, ← Finset.sum_add_distrib]
  refine Finset.sum_le_sum fun m' _ => ?_
  split_ifs with h
  · rw [mul_zero, add_zero]
    exact mul_le_mul_right (hr m m' h) _
  · refine le_add_left ?_
    rw [mul_comm (C ^ 2)]
    refine mul_le_mul_right ?_ _
    calc ∫⁻ w, T m w * T m' w ∂μ ≤ ∫⁻ _, C ^ 2 ∂μ :=
          lintegral_mono fun w => (mul_le_mul' (hC m w) (hC m' w)).trans_eq (sq C).symm
      _ = C ^ 2 := by rw [lintegral_const, measure_univ, mul_one]

theorem sum_ne_diag {ι : Type*} [Fintype ι] [DecidableEq ι] (v : ι → ℝ≥0∞) :
    ∑ m, ∑ m', (if m ≠ m' then 0 else v m * v m') = ∑ m, v m ^ 2 := by
  refine Finset.sum_congr rfl fun m _ => ?_
  rw [Finset.sum_eq_single m]
  · simp [sq]
  · intro m' _ hne
    rw [if_pos hne.symm]
  · simp

/-- Independent terms. -/
theorem lintegral_sq_indep {Ω : Type*} [MeasurableSpace Ω] (μ : Measure Ω) [IsProbabilityMeasure μ] {n : ℕ}
    (v : Fin n → ℝ≥0∞) {g : Fin n → Ω → ℝ≥0∞} (hg : ∀ m, Measurable (g m)) {C : ℝ≥0∞} (hC : ∀ m x, g m x ≤ C) :
    ∫⁻ y, (∑ m, v m * g m (y m)) ^ 2 ∂(Measure.pi fun _ : Fin n => μ) ≤
      (∑ m, v m * ∫⁻ x, g m x ∂μ) ^ 2 + C ^ 2 * ∑ m, v m ^ 2 := by
  rw [← sum_ne_diag v]
  refine lintegral_sq_le v (fun m => ∫⁻ x, g m x ∂μ) (T := fun m (y : Fin n → Ω) => g m (y m))
    (fun m => (hg m).comp (measurable_pi_apply m)) (fun m y => hC m _) (fun m m' => m ≠ m') fun m m' h => ?_
  have h1 : Measurable fun q : Ω × Ω => g m q.1 * g m' q.2 :=
    ((hg m).comp measurable_fst).mul ((hg m').comp measurable_snd)
  have h2 := (SMC.measurePreserving_pair μ h).lintegral_comp h1
  simp only at h2
  rw [h2, lintegral_prod_mul (hg m).aemeasurable (hg m').aemeasurable]

/-- Four entries of a sequence of independent variables. -/
theorem lintegral_four {Ω : Type*} [MeasurableSpace Ω] (μ : Measure Ω) [IsProbabilityMeasure μ] {n : ℕ}
    {i j k l : Fin n} (hij : i ≠ j) (hik : i ≠ k) (hil : i ≠ l) (hjk : j ≠ k) (hjl : j ≠ l) (hkl : k ≠ l)
    {h : Ω × Ω → ℝ≥0∞} (hh : Measurable h) :
    ∫⁻ y, h (y i, y j) * h (y k, y l) ∂(Measure.pi fun _ : Fin n => μ) =
      (∫⁻ q, h q ∂μ.prod μ) * ∫⁻ q, h q ∂μ.prod μ := by
  have h1 := ProbabilityTheory.iIndepFun_pi (μ := fun _ : Fin n => μ) (X := fun _ (x : Ω) => x)
    fun _ => aemeasurable_id
  have h2 := h1.indepFun_prodMk_prodMk (fun i => measurable_pi_apply i) i j k l hik hil hjk hjl
  have hp : ∀ a b : Fin n, Measurable fun y : Fin n → Ω => (y a, y b) := fun a b =>
    (measurable_pi_apply a).prodMk (measurable_pi_apply b)
  have h3 := ProbabilityTheory.lintegral_mul_eq_lintegral_mul_lintegral_of_indepFun (hh.comp (hp i j))
    (hh.comp (hp k l)) (h2.comp hh hh)
  have h4 := (SMC.measurePreserving_pair μ hij).lintegral_comp hh
  have h5 := (SMC.measurePreserving_pair μ hkl).lintegral_comp hh
  simp only [Pi.mul_apply, Function.comp_apply] at h3
  rw [h3, h4, h5]

/-- Two coordinates of independent indices. -/
theorem sum_prod_two {n N : ℕ} {q : Fin n → Fin N → ℝ≥0∞} (hq : ∀ m, ∑ b, q m b = 1) {m m' : Fin n} (hne : m ≠ m')
    (G : Fin N → Fin N → ℝ≥0∞) :
    ∑ a : Fin n → Fin N, (∏ j, q j (a j)) * G (a m) (a m') = ∑ b, ∑ b', q m b * q m' b' * G b b' := by
  -- the law of the pair
  have key : ∀ b b', ∑ a : Fin n → Fin N, (∏ j, q j (a j)) * ((if a m = b then 1 else 0) * if a m' = b' then 1 else 0) =
      q m b * q m' b' := by
    intro b b'
    obtain ⟨F, hF⟩ : ∃ F : Fin n → Fin N → ℝ≥0∞, F = fun j i =>
      (if j = m then (if i = b then 1 else 0) else 1) * (if j = m' then (if i = b' then 1 else 0) else 1) := ⟨_, rfl⟩
    have h1 : ∀ a : Fin n → Fin N, ∏ j, F j (a j) = (if a m = b then 1 else 0) * if a m' = b' then 1 else 0 := by
      intro a
      rw [hF]
      simp only [Finset.prod_mul_distrib]
      rw [Finset.prod_ite_eq' Finset.univ m fun j => if a j = b then (1 : ℝ≥0∞) else 0,
        Finset.prod_ite_eq' Finset.univ m' fun j => if a j = b' then (1 : ℝ≥0∞) else 0]
      simp
    have h2 : ∀ j, ∑ i, q j i * F j i = (if j = m then q m b else 1) * (if j = m' then q m' b' else 1) := by
      intro j
      rw [hF]
      simp only
      by_cases hj : j = m
      · subst hj
        simp [hne]
      · by_cases hj' : j = m'
        · subst hj'
          simp [hj]
        · simp [hj, hj', hq]
    simp only [← h1, ← Finset.prod_mul_distrib]
    rw [← Fintype.piFinset_univ, ← Finset.prod_univ_sum (fun _ : Fin n => (Finset.univ : Finset (Fin N)))
      fun j i => q j i * F j i]
    simp only [h2, Finset.prod_mul_distrib, Finset.prod_ite_eq', Finset.mem_univ, if_true]
  have h3 : ∀ a : Fin n → Fin N, (∏ j, q j (a j)) * G (a m) (a m') = ∑ b, ∑ b', (∏ j, q j (a j)) *
      ((if a m = b then 1 else 0) * if a m' = b' then 1 else 0) * G b b' := by
    intro a
    rw [Finset.sum_eq_single (a m), Finset.sum_eq_single (a m')]
    · simp
    · intro b' _ hb'
      simp [hb'.symm]
    · simp
    · intro b _ hb
      simp [hb.symm]
    · simp
  simp only [h3]
  rw [Finset.sum_comm]
  refine Finset.sum_congr rfl fun b _ => ?_
  rw [Finset.sum_comm]
  refine Finset.sum_congr rfl fun b' _ => ?_
  rw [← Finset.sum_mul, key]

end

end Cuthbert
