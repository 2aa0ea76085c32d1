import Verif.Props.Discrete
import Verif.Props.KalmanExact

/-!
# C114: the log evidence stays within the range of the log potentials

Discrete and Kalman filters.
-/

namespace Cuthbert.Discrete
open Cuthbert.Spec Fl

noncomputable section

variable {n : ℕ} {Inp K : Type*} {M : HMM (Fin (n + 1))} {getInit : Inp → Fin (n + 1) → Fl}
  {getTrans : Inp → Fin (n + 1) → Fin (n + 1) → Fl} {getObs : Inp → Fin (n + 1) → Fl} {inputs : List Inp}

theorem filterJoint_nonneg_of_lik (hV : Valid M) (hl : ∀ t j, 0 ≤ M.lik t j) : ∀ T k, 0 ≤ M.filterJoint T k
  | 0, k => by rw [M.filterJoint_zero]; exact hV.init_nonneg k
  | T + 1, k => by
    rw [M.filterJoint_succ]
    exact Finset.sum_nonneg fun j _ => mul_nonneg (filterJoint_nonneg_of_lik hV hl T j)
      (mul_nonneg (hV.trans_nonneg _ _ _) (hl _ _))

theorem evidence_bounds (hV : Valid M) {a b : ℕ → ℝ} (h : ∀ t j, Real.exp (a t) ≤ M.lik t j ∧ M.lik t j ≤ Real.exp (b t)) :
    ∀ T, Real.exp (∑ t ∈ Finset.range T, a t) ≤ M.evidence T ∧ M.evidence T ≤ Real.exp (∑ t ∈ Finset.range T, b t)
  | 0 => by
    rw [M.evidence_eq_sum]
    simp [M.filterJoint_zero, hV.init_sum]
  | T + 1 => by
    obtain ⟨h1, h2⟩ := evidence_bounds hV h T
    have hl : ∀ t j, 0 ≤ M.lik t j := fun t j => (Real.exp_pos _).le.trans (h t j).1
    have hf := filterJoint_nonneg_of_lik hV hl T
    have he : M.evidence (T + 1) = ∑ j, M.filterJoint T j * ∑ k, M.trans T j k * M.lik T k := by
      rw [M.evidence_eq_sum]
      simp only [M.filterJoint_succ]
      rw [Finset.sum_comm]
      exact Finset.sum_congr rfl fun j _ => by rw [Finset.mul_sum]; rfl
    rw [Finset.sum_range_succ, Finset.sum_range_succ, Real.exp_add, Real.exp_add, he]
    rw [M.evidence_eq_sum] at h1 h2
    constructor
    · refine (mul_le_mul_of_nonneg_right h1 (Real.exp_pos _).le).trans ?_
      rw [Finset.sum_mul]
      refine Finset.sum_le_sum fun j _ => mul_le_mul_of_nonneg_left ?_ (hf j)
      calc Real.exp (a T) = ∑ k, M.trans T j k * Real.exp (a T) := by rw [← Finset.sum_mul, hV.trans_sum, one_mul]
        _ ≤ _ := Finset.sum_le_sum fun k _ => mul_le_mul_of_nonneg_left (h T k).1 (hV.trans_nonneg _ _ _)
    · refine le_trans ?_ (mul_le_mul_of_nonneg_right h2 (Real.exp_pos _).le)
      rw [Finset.sum_mul]
      refine Finset.sum_le_sum fun j _ => mul_le_mul_of_nonneg_left ?_ (hf j)
      calc _ ≤ ∑ k, M.trans T j k * Real.exp (b T) :=
          Finset.sum_le_sum fun k _ => mul_le_mul_of_nonneg_left (h T k).2 (hV.trans_nonneg _ _ _)
        _ = Real.exp (b T) := by rw [← Finset.sum_mul, hV.trans_sum, one_mul]

/-- **C114** (discrete filter, both modes). If the log-likelihoods of step `t` lie between `a t` and `b t` for every
state, the log normalising constant is finite and lies between the sums. -/
theorem discrete_filter_evidence_bounds (hR : Represents M getInit getTrans getObs inputs) (hV : Valid M) (hne : inputs ≠ [])
    {a b : ℕ → ℝ} (h : ∀ t j, Real.exp (a t) ≤ M.lik t j ∧ M.lik t j ≤ Real.exp (b t)) (rng : Prng K) (key : Option K)
    (parallel : Bool) :
    ∃ states, (filter rng (buildFilter (K := K) getInit getTrans getObs) inputs parallel key).result = .ok states ∧
      states.length = inputs.length ∧ ∀ t s, states[t]? = some s → ∃ l, s.logNormalizingConstant = fin l ∧
        ∑ r ∈ Finset.range t, a r ≤ l ∧ l ≤ ∑ r ∈ Finset.range t, b r := by
  have hpos : RowsPositive M (inputs.length - 1) := by
    intro t _ i
    refine lt_of_lt_of_le (Real.exp_pos (a t)) ?_
    calc Real.exp (a t) = ∑ k, M.trans t i k * Real.exp (a t) := by rw [← Finset.sum_mul, hV.trans_sum, one_mul]
      _ ≤ _ := Finset.sum_le_sum fun k _ => mul_le_mul_of_nonneg_left (h t k).1 (hV.trans_nonneg _ _ _)
  obtain ⟨states, h1, h2, h3⟩ := discrete_filter_exact hR hV hne hpos rng key parallel
  refine ⟨states, h1, h2, fun t s hs => ?_⟩
  obtain ⟨-, h4, h5, -⟩ := h3 t s hs
  obtain ⟨h6, h7⟩ := evidence_bounds hV h t
  exact ⟨_, h5, (Real.le_log_iff_exp_le h4).2 h6, (Real.log_le_iff_le_exp h4).2 h7⟩

/-- A two-state model whose likelihoods lie between `1/e` and `1` and differ. -/
example : ∃ M : HMM (Fin 2), Valid M ∧ (∀ t j, Real.exp ((fun _ => -1) t) ≤ M.lik t j ∧ M.lik t j ≤ Real.exp ((fun _ => 0) t)) ∧
    M.lik 0 0 ≠ M.lik 0 1 := by
  refine ⟨⟨fun _ => 1 / 2, fun _ _ _ => 1 / 2, fun _ j => if j = 0 then 1 else Real.exp (-1)⟩,
    ⟨fun _ => by norm_num, by norm_num [Fin.sum_univ_two], fun _ _ _ => by norm_num, fun _ _ => by norm_num [Fin.sum_univ_two]⟩,
    fun t j => ?_, ?_⟩
  · have h1 : Real.exp (-1) ≤ 1 := Real.exp_le_one_iff.2 (by norm_num)
    dsimp only
    split_ifs
    · simp [h1]
    · simp [h1]
  · have h1 : Real.exp (-1) < 1 := Real.exp_lt_one_iff.2 (by norm_num)
    simp only [if_true]
    rw [if_neg (by decide)]
    exact h1.ne'

end

end Cuthbert.Discrete

namespace Cuthbert.Kalman
open MeasureTheory Matrix Cuthbert.Spec
open scoped ENNReal

noncomputable section

variable {nx ny : ℕ} {Inp K : Type}

/-- The largest value of the log-likelihood of the observed components: the log density of their noise at zero. -/
def peak (s : Step nx ny) : ℝ := gaussLogDensity 0 s.R 0

theorem gaussLogDensity_le_zero {ι : Type*} [Fintype ι] [DecidableEq ι] {S : Matrix ι ι ℝ} (hS : IsGram S) (m y : ι → ℝ) :
    gaussLogDensity m S y ≤ gaussLogDensity 0 S 0 := by
  obtain ⟨W, hW⟩ := hS.inv.exists_sqrt
  have h : 0 ≤ (y - m) ⬝ᵥ S⁻¹ *ᵥ (y - m) := by
    rw [← hW, ← Matrix.mulVec_mulVec, Matrix.dotProduct_mulVec, ← Matrix.mulVec_transpose]
    exact Finset.sum_nonneg fun i _ => mul_self_nonneg _
  simp only [gaussLogDensity, sub_zero, Matrix.mulVec_zero, dotProduct_zero, mul_zero]
  linarith

theorem pathExp_le : ∀ (ss : List (Step nx ny)) (x : Fin nx → ℝ),
    pathExp ss (fun _ => 1) x ≤ ENNReal.ofReal (Real.exp (ss.map peak).sum)
  | [], x => by simp [pathExp]
  | s :: ss, x => by
    rw [List.map_cons, List.sum_cons, Real.exp_add, ENNReal.ofReal_mul (Real.exp_pos _).le]
    calc _ ≤ ∫⁻ _, ENNReal.ofReal (Real.exp (peak s)) * ENNReal.ofReal (Real.exp (ss.map peak).sum)
          ∂gauss (s.F *ᵥ x + s.c) s.cholQ :=
        lintegral_mono fun x' => mul_le_mul' (ENNReal.ofReal_le_ofReal (Real.exp_le_exp.2 (gaussLogDensity_le_zero s.R_gram _ _)))
          (pathExp_le ss x')
      _ = _ := by rw [lintegral_const, measure_univ, mul_one]

/-- **C114** (Kalman filter, both modes). The log normalising constant is at most the sum, over the steps so far, of the
log density of the observation noise at zero, for the components that are observed. -/
theorem kalman_filter_evidence_bound (qr : QR) (rng : Prng K) (cb : Callbacks nx ny Inp) (u₀ : Inp) (us : List Inp)
    (parallel : Bool) (key : Option K) (hR : ∀ u ∈ us, (stepOf cb u).R.det ≠ 0) (h0 : IsLower (cb.getInit u₀).2) :
    ∃ states, (filter rng (buildFilter qr cb) (u₀ :: us) parallel key).result = .ok states ∧
      states.length = us.length + 1 ∧ ∀ t ≤ us.length, ∃ s, states[t]? = some s ∧
        ∀ l, s.logNormalizingConstant = some l → l ≤ ((us.take t).map fun u => peak (stepOf cb u)).sum := by
  obtain ⟨states, h1, h2, h3⟩ := kalman_filter_exact qr rng cb u₀ us parallel key hR
  refine ⟨states, h1, h2, fun t ht => ?_⟩
  obtain ⟨s, m, L, l, h4, -, -, h5, h6⟩ := h3 t ht
  refine ⟨s, h4, fun l' hl' => ?_⟩
  rw [(h6 h0).1 l' hl']
  have h7 := h5 (fun _ => 1) measurable_const
  rw [lintegral_const, measure_univ, mul_one, mul_one] at h7
  have h8 : ENNReal.ofReal (Real.exp l) ≤ ENNReal.ofReal (Real.exp (((us.take t).map (stepOf cb)).map peak).sum) := by
    rw [← h7, jointExp]
    calc _ ≤ ∫⁻ _, ENNReal.ofReal (Real.exp (((us.take t).map (stepOf cb)).map peak).sum) ∂gauss (cb.getInit u₀).1 (cb.getInit u₀).2 :=
        lintegral_mono fun x => pathExp_le _ x
      _ = _ := by rw [lintegral_const, measure_univ, mul_one]
  rw [ENNReal.ofReal_le_ofReal_iff (Real.exp_pos _).le, Real.exp_le_exp] at h8
  rwa [List.map_map] at h8

/-- Non-vacuity: a scalar random walk observed with noise. -/
example : ∃ cb : Callbacks 1 1 ℝ, IsLower (cb.getInit 0).2 ∧ (∀ u, (stepOf cb u).R.det ≠ 0) ∧
    ∀ u, (stepOf cb u).y 0 = some u := by
  refine ⟨⟨fun _ => (0, 1), fun _ => (1, 0, 1), fun u => (1, 0, 1, fun _ => some u)⟩, ?_, fun u => obsR_det _ _ ?_, fun _ => rfl⟩
  · intro i j h
    exact Matrix.one_apply_ne h.ne
  · change ((1 : Matrix (Fin 1) (Fin 1) ℝ) * (1 : Matrix (Fin 1) (Fin 1) ℝ)ᵀ).det ≠ 0
    simp

end

end Cuthbert.Kalman
