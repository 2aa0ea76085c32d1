import Verif.Props.LogEvidence

/-!
# Comparing two models of a growing series

`PA` and `PB` are two laws of a series `y_1..y_T`, whose first `t` terms have densities `exp (a t)` and `exp (b t)`.
-/

namespace Cuthbert.Compare
open MeasureTheory Set
open scoped ENNReal

noncomputable section

variable {V : Type} {T : ℕ}

/-- The first `t` terms of a series. -/
def pre (t : Fin (T + 1)) (y : Fin T → V) : Fin t → V := fun i => y (Fin.castLE (Nat.le_of_lt_succ t.2) i)

/-- The first `t` of the first `s` terms. -/
def short {s : ℕ} (t : ℕ) (h : t ≤ s) (z : Fin s → V) : Fin t → V := fun i => z (Fin.castLE h i)

theorem short_pre (s t : Fin (T + 1)) (h : t ≤ s) (y : Fin T → V) : short t h (pre s y) = pre t y := rfl

variable [MeasurableSpace V]

theorem measurable_pre (t : Fin (T + 1)) : Measurable (pre (V := V) t) :=
  measurable_pi_lambda _ fun _ => measurable_pi_apply _

theorem measurable_short {s : ℕ} (t : ℕ) (h : t ≤ s) : Measurable (short (V := V) t h) :=
  measurable_pi_lambda _ fun _ => measurable_pi_apply _

/-- The first `t` terms have the density `exp (a t)`. -/
def HasDensities (P : Measure (Fin T → V)) (μ : ∀ t, Measure (Fin t → V)) (a : ∀ t, (Fin t → V) → ℝ) : Prop :=
  ∀ (t : Fin (T + 1)) (ψ : (Fin t → V) → ℝ≥0∞), Measurable ψ →
    ∫⁻ y, ψ (pre t y) ∂P = ∫⁻ z, ENNReal.ofReal (Real.exp (a t z)) * ψ z ∂μ t

variable {PA PB : Measure (Fin T → V)} {μ : ∀ t, Measure (Fin t → V)} {a b : ∀ t, (Fin t → V) → ℝ}

/-- The first crossing of the level `c` is at time `t`. -/
def firstAt (a b : ∀ t, (Fin t → V) → ℝ) (c : ℝ) (t : ℕ) : Set (Fin t → V) :=
  {z | c ≤ b t z - a t z} ∩ ⋂ s : Fin t, {z | b s (short s s.2.le z) - a s (short s s.2.le z) < c}

theorem measurableSet_firstAt (ha : ∀ t, Measurable (a t)) (hb : ∀ t, Measurable (b t)) (c : ℝ) (t : ℕ) :
    MeasurableSet (firstAt a b c t) := by
  refine (measurableSet_le measurable_const ((hb t).sub (ha t))).inter (MeasurableSet.iInter fun s => ?_)
  have hs := measurable_short (V := V) s.1 s.2.le
  exact measurableSet_lt (((hb s).comp hs).sub ((ha s).comp hs)) measurable_const

theorem HasDensities.measure (h : HasDensities PA μ a) (t : Fin (T + 1)) {E : Set (Fin t → V)} (hE : MeasurableSet E) :
    PA (pre t ⁻¹' E) = ∫⁻ z in E, ENNReal.ofReal (Real.exp (a t z)) ∂μ t := by
  have h1 := h t (E.indicator 1) (measurable_one.indicator hE)
  have e : (fun y => E.indicator (1 : (Fin t → V) → ℝ≥0∞) (pre t y)) = (pre t ⁻¹' E).indicator 1 := rfl
  rw [e, lintegral_indicator_one (measurable_pre t hE)] at h1
  rw [h1, ← lintegral_indicator hE]
  refine lintegral_congr fun z => ?_
  by_cases hz : z ∈ E <;> simp [hz]

/-- Ville's inequality for the ratio of the densities. -/
theorem ville [IsProbabilityMeasure PB] (hA : HasDensities PA μ a) (hB : HasDensities PB μ b)
    (ha : ∀ t, Measurable (a t)) (hb : ∀ t, Measurable (b t)) (c : ℝ) :
    PA {y | ∃ t : Fin (T + 1), c ≤ b t (pre t y) - a t (pre t y)} ≤ ENNReal.ofReal (Real.exp (-c)) := by
  have hm := measurableSet_firstAt ha hb c
  have hsub : {y | ∃ t : Fin (T + 1), c ≤ b t (pre t y) - a t (pre t y)} ⊆
      ⋃ t : Fin (T + 1), pre t ⁻¹' firstAt a b c t := by
    rintro y ⟨t, ht⟩
    have hex : ∃ n : ℕ, ∃ h : n < T + 1, c ≤ b n (pre ⟨n, h⟩ y) - a n (pre ⟨n, h⟩ y) := ⟨t, t.2, ht⟩
    classical
    obtain ⟨h1, h2⟩ := Nat.find_spec hex
    refine mem_iUnion.2 ⟨⟨Nat.find hex, h1⟩, h2, mem_iInter.2 fun s => ?_⟩
    have hs := Nat.find_min hex s.2
    push Not at hs
    exact hs (s.2.trans h1)
  have hdisj : Pairwise (Function.onFun Disjoint fun t : Fin (T + 1) => pre (V := V) t ⁻¹' firstAt a b c t) := by
    have key : ∀ s t : Fin (T + 1), s < t → Disjoint (pre (V := V) s ⁻¹' firstAt a b c s) (pre t ⁻¹' firstAt a b c t) := by
      intro s t hst
      rw [Set.disjoint_left]
      intro y hs ht
      have h1 : c ≤ b s (pre s y) - a s (pre s y) := hs.1
      have h2 := mem_iInter.1 ht.2 ⟨s, hst⟩
      have h3 : b s (pre s y) - a s (pre s y) < c := h2
      exact absurd h1 (not_le.2 h3)
    intro s t hst
    rcases lt_or_gt_of_ne hst with h | h
    · exact key s t h
    · exact (key t s h).symm
  have hone : ∀ t : Fin (T + 1), PA (pre t ⁻¹' firstAt a b c t) ≤
      ENNReal.ofReal (Real.exp (-c)) * PB (pre t ⁻¹' firstAt a b c t) := by
    intro t
    have hmb : Measurable fun z => ENNReal.ofReal (Real.exp (b t z)) :=
      ENNReal.measurable_ofReal.comp (Real.measurable_exp.comp (hb t))
    rw [hA.measure t (hm t), hB.measure t (hm t), ← lintegral_const_mul _ hmb]
    refine setLIntegral_mono' (hm t) fun z hz => ?_
    rw [← ENNReal.ofReal_mul (Real.exp_nonneg _), ← Real.exp_add]
    have h1 : c ≤ b t z - a t z := hz.1
    exact ENNReal.ofReal_le_ofReal (Real.exp_le_exp.2 (by linarith))
  calc PA {y | ∃ t : Fin (T + 1), c ≤ b t (pre t y) - a t (pre t y)}
      ≤ PA (⋃ t : Fin (T + 1), pre t ⁻¹' firstAt a b c t) := measure_mono hsub
    _ ≤ ∑ t : Fin (T + 1), PA (pre t ⁻¹' firstAt a b c t) := measure_iUnion_fintype_le _ _
    _ ≤ ∑ t : Fin (T + 1), ENNReal.ofReal (Real.exp (-c)) * PB (pre t ⁻¹' firstAt a b c t) :=
        Finset.sum_le_sum fun t _ => hone t
    _ = ENNReal.ofReal (Real.exp (-c)) * PB (⋃ t : Fin (T + 1), pre t ⁻¹' firstAt a b c t) := by
        rw [measure_iUnion hdisj fun t => measurable_pre t (hm t), tsum_fintype, Finset.mul_sum]
    _ ≤ ENNReal.ofReal (Real.exp (-c)) * 1 := by gcongr; exact prob_le_one
    _ = _ := mul_one _

/-- Gibbs' inequality: under `PA` the log density of `PA` is on average larger. -/
theorem gibbs [IsProbabilityMeasure PA] [IsProbabilityMeasure PB] (hA : HasDensities PA μ a) (hB : HasDensities PB μ b)
    (ha : ∀ t, Measurable (a t)) (hb : ∀ t, Measurable (b t)) (t : Fin (T + 1)) :
    ∫⁻ y, ENNReal.ofReal (b t (pre t y) - a t (pre t y)) ∂PA ≤ ∫⁻ y, ENNReal.ofReal (a t (pre t y) - b t (pre t y)) ∂PA ∧
      (∫⁻ y, ENNReal.ofReal (a t (pre t y) - b t (pre t y)) ∂PA ≠ ∞ → ¬ (∀ᵐ y ∂PA, b t (pre t y) = a t (pre t y)) →
        ∫⁻ y, ENNReal.ofReal (b t (pre t y) - a t (pre t y)) ∂PA <
          ∫⁻ y, ENNReal.ofReal (a t (pre t y) - b t (pre t y)) ∂PA) := by
  have hx : Measurable fun z : Fin t → V => ENNReal.ofReal (Real.exp (b t z - a t z)) :=
    ENNReal.measurable_ofReal.comp (Real.measurable_exp.comp ((hb t).sub (ha t)))
  have h1 : ∫⁻ y, ENNReal.ofReal (Real.exp (b t (pre t y) - a t (pre t y))) ∂PA = 1 := by
    rw [hA t (fun z => ENNReal.ofReal (Real.exp (b t z - a t z))) hx]
    have h2 := hB t (fun _ => 1) measurable_const
    rw [lintegral_const, measure_univ, mul_one] at h2
    rw [h2]
    refine lintegral_congr fun z => ?_
    rw [← ENNReal.ofReal_mul (Real.exp_nonneg _), ← Real.exp_add, mul_one]
    congr 2
    ring
  have h := SMC.log_bias (P := PA) (ℓ := fun y => Fl.fin (b t (pre t y) - a t (pre t y))) (z := 0)
    (hx.comp (measurable_pre t)) (by simpa [Fl.lik] using h1)
  obtain ⟨-, h2, h3⟩ := h
  simp only [SMC.excess, SMC.shortfall, sub_zero, zero_sub, neg_sub, Fl.fin.injEq, sub_eq_zero] at h2 h3
  exact ⟨h2, h3⟩

end

end Cuthbert.Compare
