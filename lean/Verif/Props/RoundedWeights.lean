import Verif.Model.RoundedWeights
import Verif.Spec.RoundedWeights
import Verif.Props.Rounding
import Verif.Props.RoundedDiscrete
import Mathlib.Analysis.Complex.ExponentialBounds

/-!
# C131: resampling probabilities in floating point
-/

namespace Cuthbert.Resampling
open Cuthbert Fl Discrete MeasureTheory Set

variable {N : ℕ} {A : Arith} {fl : ℝ → ℝ} {u B : ℝ} {l : Fin N → Fl}

/-- The exponential of a rounded difference `x` of `g` and `m`, at most `ν ≤ 1/2` apart from what it should be: accurate, or
both it and the exact value are tiny. -/
theorem exp_sub_near (hA : A.AccurateExp fl u B) (hu : u ≤ 1 / 4) (hB : 1 ≤ B) {g m : ℝ} (hgm : g - m ≤ 1 / 2) :
    ∃ e, A.exp (A.sub (fin g) (fin m)) = fin e ∧ 0 ≤ e ∧ (Near (u + 2 * B * u) (Real.exp (g - m)) e ∨
      e ≤ Real.exp (-B + u * B) ∧ Real.exp (g - m) ≤ Real.exp (-B + u * B)) := by
  have hu0 := hA.accurate.unit_nonneg
  obtain ⟨x, hx, hxe⟩ := hA.accurate.sub g m
  have hx1 := abs_le.mp hxe
  rw [hx]
  rcases lt_or_ge x (-B) with hlt | hge
  · obtain ⟨c, hc, hc0, hcB⟩ := hA.exp_under x hlt
    refine ⟨c, hc, hc0, Or.inr ⟨hcB.trans (Real.exp_le_exp.mpr (by nlinarith)), Real.exp_le_exp.mpr ?_⟩⟩
    have hneg : g - m < 0 := by
      by_contra hcon
      have hcon := not_lt.mp hcon
      rw [abs_of_nonneg hcon] at hx1
      nlinarith
    rw [abs_of_neg hneg] at hx1
    nlinarith
  · have habs : |g - m| ≤ 2 * B := by
      rcases le_total 0 (g - m) with h | h
      · rw [abs_of_nonneg h]; linarith
      · rw [abs_of_nonpos h] at hx1 ⊢
        nlinarith
    have hle : u * |g - m| ≤ u * (2 * B) := mul_le_mul_of_nonneg_left habs hu0
    have hx2 : x ≤ 1 := by
      rcases le_total 0 (g - m) with h | h
      · rw [abs_of_nonneg h] at hx1; nlinarith
      · rw [abs_of_nonpos h] at hx1; nlinarith
    obtain ⟨c, hc, hcn⟩ := hA.exp_range x hge hx2
    refine ⟨c, hc, hcn.nonneg (Real.exp_pos x).le, Or.inl ?_⟩
    have h1 : Near (2 * B * u) (Real.exp (g - m)) (Real.exp x) := Near.exp (hxe.trans (by linarith))
    rw [add_comm]
    exact h1.trans hcn

/-- Sums of numbers that are accurate or tiny are accurate if the sum is at least one. -/
theorem sum_near_or_tiny {a b : Fin N → ℝ} {ε τ : ℝ} (hε : 0 ≤ ε) (hτ0 : 0 ≤ τ) (hτ : N * τ ≤ 1 / 2) (ha : ∀ i, 0 ≤ a i)
    (hb : ∀ i, 0 ≤ b i) (h : ∀ i, Near ε (a i) (b i) ∨ b i ≤ τ ∧ a i ≤ τ) (h1 : 1 ≤ ∑ i, a i) :
    Near (ε + 2 * (N * τ)) (∑ i, a i) (∑ i, b i) := by
  have hE := Real.exp_pos ε
  have hE' := Real.exp_pos (-ε)
  have hE1 : 1 ≤ Real.exp ε := Real.one_le_exp hε
  have hE2 : Real.exp (-ε) ≤ 1 := Real.exp_le_one_iff.mpr (by linarith)
  have hup : ∀ i, b i ≤ Real.exp ε * a i + τ := by
    intro i
    rcases h i with h | h
    · linarith [h.2]
    · linarith [h.1, mul_nonneg hE.le (ha i)]
  have hlo : ∀ i, Real.exp (-ε) * a i - Real.exp (-ε) * τ ≤ b i := by
    intro i
    rcases h i with h | h
    · linarith [h.1, mul_nonneg hE'.le hτ0]
    · rw [← mul_sub]
      exact (mul_nonpos_of_nonneg_of_nonpos hE'.le (by linarith [h.2])).trans (hb i)
  have hS : 0 ≤ ∑ i, a i := by linarith
  obtain ⟨S, hSd⟩ : ∃ S, S = ∑ i, a i := ⟨_, rfl⟩
  have hn : 0 ≤ N * τ := mul_nonneg (Nat.cast_nonneg N) hτ0
  constructor
  · have h2 : ∑ i, (Real.exp (-ε) * a i - Real.exp (-ε) * τ) ≤ ∑ i, b i := Finset.sum_le_sum fun i _ => hlo i
    rw [Finset.sum_sub_distrib, ← Finset.mul_sum, Finset.sum_const, Finset.card_univ, Fintype.card_fin, nsmul_eq_mul] at h2
    refine le_trans ?_ h2
    rw [← hSd] at h1 ⊢
    have h3 : Real.exp (-(2 * (N * τ))) ≤ 1 - N * τ := by
      have h4 : 1 + 2 * (N * τ) ≤ Real.exp (2 * (N * τ)) := by linarith [Real.add_one_le_exp (2 * (N * τ))]
      rw [Real.exp_neg, inv_le_comm₀ (Real.exp_pos _) (by linarith)]
      refine le_trans ?_ h4
      rw [inv_le_iff_one_le_mul₀ (by linarith)]
      nlinarith
    rw [neg_add, Real.exp_add]
    have h5 : Real.exp (-ε) * (Real.exp (-(2 * (N * τ))) * S) ≤ Real.exp (-ε) * ((1 - N * τ) * S) :=
      mul_le_mul_of_nonneg_left (mul_le_mul_of_nonneg_right h3 (by linarith)) hE'.le
    have h6 : Real.exp (-ε) * ((1 - N * τ) * S) ≤ Real.exp (-ε) * (S - N * τ) :=
      mul_le_mul_of_nonneg_left (by nlinarith) hE'.le
    linarith
  · have h2 : ∑ i, b i ≤ ∑ i, (Real.exp ε * a i + τ) := Finset.sum_le_sum fun i _ => hup i
    rw [Finset.sum_add_distrib, ← Finset.mul_sum, Finset.sum_const, Finset.card_univ, Fintype.card_fin, nsmul_eq_mul] at h2
    refine h2.trans ?_
    rw [← hSd] at h1 ⊢
    have h3 : 1 + 2 * (N * τ) ≤ Real.exp (2 * (N * τ)) := by linarith [Real.add_one_le_exp (2 * (N * τ))]
    rw [Real.exp_add]
    have h4 : Real.exp ε * S * (1 + 2 * (N * τ)) ≤ Real.exp ε * S * Real.exp (2 * (N * τ)) :=
      mul_le_mul_of_nonneg_left h3 (mul_nonneg hE.le (by linarith))
    have h5 : N * τ ≤ Real.exp ε * S * (N * τ) := le_mul_of_one_le_left hn (by nlinarith)
    nlinarith

/-- The relative error of sums of exponentials of differences: `N + 1` operations, differences of at most `2 B`, underflow. -/
noncomputable def sumErr (N : ℕ) (u B : ℝ) : ℝ := (N + 1 + 2 * B) * u + 2 * (N * Real.exp (-B + u * B))

/-- `logsumexp` with rounded arithmetic: the error is relative to the result, so it grows with the size of the log weights. -/
theorem logsumexpWith_near (hA : A.AccurateExp fl u B) (hl : IsLogits l) (hu : u ≤ 1 / 4) (hB : 1 ≤ B)
    (hτ : N * Real.exp (-B + u * B) ≤ 1 / 2) :
    ∃ lam, logsumexpWith A l = fin lam ∧
      |lam - Real.log (∑ i, (l i).lik)| ≤ u * |Real.log (∑ i, (l i).lik)| + 3 * sumErr N u B := by
  have hu0 := hA.accurate.unit_nonneg
  obtain ⟨hlog, i₁, hi₁⟩ := hl
  have hex : ∃ j, l j ≠ ninf := ⟨i₁, fun h => by rw [h] at hi₁; exact hi₁⟩
  obtain ⟨m, hm, ⟨j₀, hj₀⟩, hle⟩ := vmax_spec hlog hex
  obtain ⟨S, hS⟩ : ∃ S, S = ∑ i, (l i).lik := ⟨_, rfl⟩
  have hE : ∀ j, ∃ e, A.exp (A.sub (l j) (fin m)) = fin e ∧ 0 ≤ e ∧ (Near (u + 2 * B * u) ((l j).lik * Real.exp (-m)) e ∨
      e ≤ Real.exp (-B + u * B) ∧ (l j).lik * Real.exp (-m) ≤ Real.exp (-B + u * B)) := by
    intro j
    rcases isLog_cases (hlog j) with h | ⟨g, h⟩
    · refine ⟨0, by rw [h, hA.accurate.sub_ninf, hA.accurate.exp_ninf], le_rfl, Or.inl ?_⟩
      simp [h, lik, Near]
    · have h1 : (l j).lik * Real.exp (-m) = Real.exp (g - m) := by
        rw [h, sub_eq_add_neg, Real.exp_add]; rfl
      rw [h1, h]
      exact exp_sub_near hA hu hB (by linarith [hle j g h])
  choose e he he0 hen using hE
  have hsum : ∑ j, (l j).lik * Real.exp (-m) = S * Real.exp (-m) := by rw [hS, Finset.sum_mul]
  have hw0 : ∀ j, 0 ≤ (l j).lik * Real.exp (-m) := fun j => mul_nonneg (lik_nonneg _) (Real.exp_pos _).le
  have hone : 1 ≤ ∑ j, (l j).lik * Real.exp (-m) := by
    have h1 : (l j₀).lik * Real.exp (-m) = 1 := by
      rw [hj₀]; show Real.exp m * Real.exp (-m) = 1; rw [← Real.exp_add]; simp
    rw [← h1]
    exact Finset.single_le_sum (f := fun j => (l j).lik * Real.exp (-m)) (fun j _ => hw0 j) (Finset.mem_univ j₀)
  have hN : ∑ j, (l j).lik * Real.exp (-m) ≤ N := by
    have h1 : ∀ j ∈ Finset.univ, (l j).lik * Real.exp (-m) ≤ 1 := by
      intro j _
      rcases isLog_cases (hlog j) with h | ⟨g, h⟩
      · rw [h]; simp [lik]
      · have h1 : (l j).lik * Real.exp (-m) = Real.exp (g - m) := by
          rw [h, sub_eq_add_neg, Real.exp_add]; rfl
        rw [h1]
        exact Real.exp_le_one_iff.mpr (by linarith [hle j g h])
    simpa using Finset.sum_le_card_nsmul _ _ _ h1
  have hB0 : 0 ≤ u + 2 * B * u := by positivity
  have hnear := sum_near_or_tiny hB0 (Real.exp_pos _).le hτ hw0 he0 hen hone
  obtain ⟨s, hs, hsn⟩ := hA.accurate.sum e he0
  have hspos : 0 < s := hsn.pos (hnear.pos (by linarith))
  obtain ⟨κ, hκ⟩ : ∃ κ, κ = sumErr N u B := ⟨_, rfl⟩
  have hlogs : |Real.log s - (Real.log S - m)| ≤ κ := by
    have h1 := (hnear.trans hsn).log (by linarith)
    have hSpos : 0 < S := by
      rw [hsum] at hone
      by_contra hc
      have := mul_nonpos_of_nonpos_of_nonneg (not_lt.mp hc) (Real.exp_pos (-m)).le
      linarith
    rw [hsum, Real.log_mul hSpos.ne' (Real.exp_ne_zero _), Real.log_exp] at h1
    rw [sub_eq_add_neg (Real.log S)]
    refine h1.trans (le_of_eq ?_)
    rw [hκ, sumErr]
    ring
  have hlogS : |Real.log S - m| ≤ N := by
    have hSpos : 0 < S := by
      rw [hsum] at hone
      by_contra hc
      have := mul_nonpos_of_nonpos_of_nonneg (not_lt.mp hc) (Real.exp_pos (-m)).le
      linarith
    have h1 : Real.log (∑ j, (l j).lik * Real.exp (-m)) = Real.log S - m := by
      rw [hsum, Real.log_mul hSpos.ne' (Real.exp_ne_zero _), Real.log_exp]; ring
    rw [← h1, abs_of_nonneg (Real.log_nonneg hone)]
    have := Real.log_le_sub_one_of_pos (lt_of_lt_of_le one_pos hone)
    linarith
  obtain ⟨b, hb, hbe⟩ := hA.accurate.log s hspos
  obtain ⟨lam, hlam, hlame⟩ := hA.accurate.add b m
  refine ⟨lam, ?_, ?_⟩
  · simp only [logsumexpWith, hm, he, hs, hb, hlam]
  · rw [← hS, ← hκ]
    have hκN : (N : ℝ) * u ≤ κ := by
      have : 0 ≤ N * Real.exp (-B + u * B) := by positivity
      have : 0 ≤ (1 + 2 * B) * u := by positivity
      rw [hκ, sumErr]
      linarith
    have hκ0 : 0 ≤ κ := le_trans (by positivity) hκN
    have h1 : |Real.log s| ≤ N + κ := by
      have := abs_add_le (Real.log s - (Real.log S - m)) (Real.log S - m)
      rw [sub_add_cancel] at this
      linarith
    have h2 : u * |Real.log s| ≤ κ + u * κ := (mul_le_mul_of_nonneg_left h1 hu0).trans (by linarith)
    have h3 : |b + m - Real.log S| ≤ 2 * κ + u * κ := by
      have := abs_add_le (b - Real.log s) (Real.log s - (Real.log S - m))
      have e : b - Real.log s + (Real.log s - (Real.log S - m)) = b + m - Real.log S := by ring
      rw [e] at this
      linarith
    have h4 : |b + m| ≤ |Real.log S| + (2 * κ + u * κ) := by
      have := abs_add_le (b + m - Real.log S) (Real.log S)
      rw [sub_add_cancel] at this
      linarith
    have h5 : u * |b + m| ≤ u * |Real.log S| + u * (2 * κ + u * κ) := by
      rw [← mul_add]; exact mul_le_mul_of_nonneg_left h4 hu0
    have h6 := abs_add_le (lam - (b + m)) (b + m - Real.log S)
    rw [sub_add_sub_cancel] at h6
    have h7 : u * κ ≤ κ / 4 := by nlinarith
    have h8 : u * (u * κ) ≤ κ / 16 := by nlinarith
    nlinarith

/-- The relative error of the normalised weights. -/
noncomputable def weightErr (l : Fin N → Fl) (u B : ℝ) : ℝ := u * |Real.log (∑ i, (l i).lik)| + 4 * sumErr N u B

/-- C131: the normalised weights are numbers, whatever the log weights, and accurate up to a relative error and the underflow
of the exponential function. The relative error contains `u` times the size of the log weights. -/
theorem weightsWith_near (hA : A.AccurateExp fl u B) (hl : IsLogits l) (hu : u ≤ 1 / 4) (hB : 1 ≤ B)
    (hτ : N * Real.exp (-B + u * B) ≤ 1 / 2) (hη : weightErr l u B ≤ 1 / 2) :
    ∃ w : Fin N → ℝ, (∀ i, weightsWith A l i = fin (w i)) ∧ (∀ i, 0 ≤ w i) ∧ (∀ i, fl (w i) = w i) ∧
      ∀ i, |w i - nw l i| ≤ 2 * weightErr l u B * nw l i + 2 * Real.exp (-B + u * B) := by
  have hu0 := hA.accurate.unit_nonneg
  obtain ⟨lam, hlam, hlame⟩ := logsumexpWith_near hA hl hu hB hτ
  obtain ⟨S, hS⟩ : ∃ S, S = ∑ i, (l i).lik := ⟨_, rfl⟩
  obtain ⟨κ, hκ⟩ : ∃ κ, κ = sumErr N u B := ⟨_, rfl⟩
  obtain ⟨η, hηd⟩ : ∃ η, η = weightErr l u B := ⟨_, rfl⟩
  have hηe : η = u * |Real.log S| + 4 * κ := by rw [hηd, weightErr, hS, hκ]
  have hκB : u + 2 * B * u ≤ κ := by
    have h1 : 0 ≤ N * Real.exp (-B + u * B) := by positivity
    have h2 : 0 ≤ N * u := by positivity
    rw [hκ, sumErr]
    linarith
  have hκ0 : 0 ≤ κ := le_trans (by positivity) hκB
  have hη0 : 0 ≤ η := by rw [hηe]; positivity
  have hδ : |lam - Real.log S| ≤ η - κ := by
    rw [hS, hηe, hS]
    refine hlame.trans ?_
    rw [← hκ]
    linarith
  rw [← hηd] at hη ⊢
  have hSpos : 0 < S := by
    rw [hS]
    obtain ⟨i₁, hi₁⟩ := hl.2
    refine Finset.sum_pos' (fun i _ => lik_nonneg _) ⟨i₁, Finset.mem_univ _, ?_⟩
    cases hli : l i₁ <;> rw [hli] at hi₁ <;> simp_all [Fl.IsFin, lik, Real.exp_pos]
  have hW : ∀ i g, l i = fin g → nw l i = Real.exp (g - Real.log S) := by
    intro i g h
    rw [Real.exp_sub, Real.exp_log hSpos, nw, ← hS, h]
    rfl
  have hle : ∀ i g, l i = fin g → g ≤ Real.log S := by
    intro i g h
    rw [Real.le_log_iff_exp_le hSpos, hS]
    have h1 : (l i).lik = Real.exp g := by rw [h]; rfl
    rw [← h1]
    exact Finset.single_le_sum (f := fun i => (l i).lik) (fun j _ => lik_nonneg _) (Finset.mem_univ i)
  have hδ' := abs_le.mp hδ
  have hmain : ∀ i, ∃ w, weightsWith A l i = fin w ∧ 0 ≤ w ∧
      |w - nw l i| ≤ 2 * η * nw l i + 2 * Real.exp (-B + u * B) := by
    intro i
    have hτ0 := Real.exp_pos (-B + u * B)
    rcases isLog_cases (hl.1 i) with h | ⟨g, h⟩
    · refine ⟨0, by rw [weightsWith, hlam, h, hA.accurate.sub_ninf, hA.accurate.exp_ninf], le_rfl, ?_⟩
      have : nw l i = 0 := by rw [nw, h]; simp [lik]
      rw [this]
      simpa using hτ0.le
    · have hgS := hle i g h
      obtain ⟨w, hw, hw0, hwn⟩ := exp_sub_near hA hu hB (g := g) (m := lam) (by linarith)
      refine ⟨w, by rw [weightsWith, hlam, h, hw], hw0, ?_⟩
      rw [hW i g h]
      have hnn := (Real.exp_pos (g - Real.log S)).le
      rcases hwn with hwn | ⟨hw1, hw2⟩
      · have h1 : Near (η - κ) (Real.exp (g - Real.log S)) (Real.exp (g - lam)) := by
          refine Near.exp ?_
          rw [show g - lam - (g - Real.log S) = -(lam - Real.log S) by ring, abs_neg]
          exact hδ
        have h2 : Near η (Real.exp (g - Real.log S)) w := (h1.trans hwn).mono hnn (by linarith)
        have := h2.abs_le hnn hη0 hη
        linarith
      · have h1 : Real.exp (g - Real.log S) ≤ 2 * Real.exp (-B + u * B) := by
          have h2 : Real.exp (g - Real.log S) = Real.exp (g - lam) * Real.exp (lam - Real.log S) := by
            rw [← Real.exp_add]; congr 1; ring
          have h3 : Real.exp (lam - Real.log S) ≤ 2 := by
            refine (Real.exp_le_exp.mpr (by linarith : lam - Real.log S ≤ 1 / 2)).trans ?_
            have h4 := Real.add_one_le_exp (-(1 / 2 : ℝ))
            rw [Real.exp_neg] at h4
            have h5 : (Real.exp (1 / 2))⁻¹ ≥ 2⁻¹ := by norm_num at h4 ⊢; linarith
            exact (inv_le_inv₀ (by norm_num) (Real.exp_pos _)).mp h5
          rw [h2]
          nlinarith [Real.exp_pos (g - lam), Real.exp_pos (lam - Real.log S)]
        rw [abs_le]
        have : 0 ≤ 2 * η * Real.exp (g - Real.log S) := by positivity
        constructor <;> linarith
  choose w hw hw0 hwe using hmain
  exact ⟨w, hw, hw0, fun i => hA.exp_float _ _ (hw i), hwe⟩

section draws

variable [NeZero N] {ε : ℝ} {w W : Fin N → ℝ}

/-- If the rounded cumulative sums of the weights `w` are close to the cumulative sums of probabilities `W`, then draws have
almost the probabilities `W`. -/
theorem drawProb_error (h : Rounding fl ε) (hw0 : ∀ i, 0 ≤ w i) (hw : ∀ i, fl (w i) = w i) (hW0 : ∀ i, 0 ≤ W i)
    (hsum : ∑ i, W i = 1) {δ : ℝ} (hδ : ∀ j : Fin N, |roundedSum fl w j j.isLt - cum W j| ≤ δ) (i : Fin N) :
    |drawProb fl w i - W i| ≤ 2 * δ := by
  obtain ⟨lo, hi, hlo, hhi, heq⟩ := draws_eq h hw0 hw i
  rw [drawProb, heq, volume_Ico_inter_Ioc]
  have herr := fun j => abs_le.mp (hδ j)
  have hδ0 : 0 ≤ δ := (abs_nonneg _).trans (hδ i)
  have hc := cum_eq W i
  have hb0 := cumBelow_nonneg hW0 i
  have hc1 : cum W i ≤ 1 := (cum_le_sum hW0 i).trans hsum.le
  have hwi := hW0 i
  have h1 : |max 0 lo - cumBelow W i| ≤ δ := by
    rcases hlo with ⟨h2, rfl⟩ | ⟨j, hj, rfl⟩
    · rw [cumBelow_zero _ _ h2]
      simpa using hδ0
    · rw [cumBelow_succ W j i hj.symm, max_eq_right (roundedSum_nonneg h hw0 hw j j.isLt)]
      exact abs_le.mpr (herr j)
  have h2 : |min 1 hi - cum W i| ≤ δ := by
    rcases hhi with ⟨h3, rfl⟩ | ⟨-, rfl⟩
    · rw [cum_last W i h3, hsum]
      simpa using hδ0
    · rw [abs_le]
      have := herr i
      constructor
      · rcases min_choice 1 (roundedSum fl w i i.isLt) with h3 | h3 <;> rw [h3] <;> linarith
      · linarith [min_le_right 1 (roundedSum fl w i i.isLt)]
  rw [abs_le] at h1 h2 ⊢
  constructor
  · linarith [le_max_left (min 1 hi - max 0 lo) 0]
  · rcases max_choice (min 1 hi - max 0 lo) 0 with h3 | h3 <;> rw [h3] <;> linarith

omit [NeZero N] in
theorem roundedSum_error' (h : Rounding fl ε) (hw0 : ∀ i, 0 ≤ w i) (hw : ∀ i, fl (w i) = w i) {a b : ℝ} (ha : 0 ≤ a)
    (hW0 : ∀ i, 0 ≤ W i) (hsum : ∑ i, W i = 1) (hwW : ∀ i, |w i - W i| ≤ a * W i + b) (hb : 0 ≤ b)
    (i : Fin N) : |roundedSum fl w i i.isLt - cum W i| ≤ ((1 + ε) ^ N - 1) * (1 + (a + N * b)) + (a + N * b) := by
  have he := h.eps_nonneg
  have he1 := h.eps_le
  obtain ⟨h1, h2⟩ := roundedSum_bounds h hw0 hw i i.isLt
  have hcw : |cum w i - cum W i| ≤ a + N * b := by
    rw [cum, cum, ← Finset.sum_sub_distrib]
    refine (Finset.abs_sum_le_sum_abs _ _).trans ((Finset.sum_le_sum fun j _ => hwW j).trans ?_)
    rw [Finset.sum_add_distrib, ← Finset.mul_sum]
    refine add_le_add ?_ ?_
    · have : ∑ j ∈ Finset.Iic i, W j ≤ 1 := (cum_le_sum hW0 i).trans hsum.le
      nlinarith
    · rw [Finset.sum_const, nsmul_eq_mul]
      refine mul_le_mul_of_nonneg_right ?_ hb
      have := Finset.card_le_univ (Finset.Iic i)
      rw [Fintype.card_fin] at this
      exact_mod_cast this
  have hcw' := abs_le.mp hcw
  have hW1 : cum W i ≤ 1 := (cum_le_sum hW0 i).trans hsum.le
  have hc0 : 0 ≤ cum w i := by
    rw [cum_eq]
    exact add_nonneg (cumBelow_nonneg hw0 i) (hw0 i)
  have h3 : (1 + ε) ^ (i : ℕ) ≤ (1 + ε) ^ N := pow_le_pow_right₀ (by linarith) i.isLt.le
  have h4 : (1 : ℝ) ≤ (1 + ε) ^ (i : ℕ) := one_le_pow₀ (by linarith)
  have h5 : 1 + (i : ℕ) * ε ≤ (1 + ε) ^ (i : ℕ) := one_add_mul_le_pow (by linarith) _
  have h6 : 1 + (i : ℕ) * (-ε) ≤ (1 + -ε) ^ (i : ℕ) := one_add_mul_le_pow (by linarith) _
  rw [← sub_eq_add_neg] at h6
  have h7 : |roundedSum fl w i i.isLt - cum w i| ≤ ((1 + ε) ^ N - 1) * (1 + (a + N * b)) := by
    have hq : cum w i ≤ 1 + (a + N * b) := by linarith
    have h8 : ((1 + ε) ^ (i : ℕ) - 1) * cum w i ≤ ((1 + ε) ^ N - 1) * (1 + (a + N * b)) :=
      mul_le_mul (by linarith) hq hc0 (by linarith)
    have h9 : (1 - (1 - ε) ^ (i : ℕ)) * cum w i ≤ ((1 + ε) ^ (i : ℕ) - 1) * cum w i :=
      mul_le_mul_of_nonneg_right (by linarith) hc0
    rw [abs_le]
    constructor <;> linarith
  have := abs_add_le (roundedSum fl w i i.isLt - cum w i) (cum w i - cum W i)
  rw [sub_add_sub_cancel] at this
  linarith

/-- The probability that a uniform draw gets index `i`, all in floating point. -/
noncomputable def drawProbWith (A : Arith) (fl : ℝ → ℝ) (l : Fin N → Fl) (i : Fin N) : ℝ :=
  (volume {v : ℝ | v ∈ Ico 0 1 ∧ inverseCdfWith A fl (fun _ : Fin 1 => v) l 0 = i}).toReal

theorem drawProbWith_eq (hw : ∀ i, weightsWith A l i = fin (w i)) (i : Fin N) : drawProbWith A fl l i = drawProb fl w i := by
  simp only [drawProbWith, drawProb, inverseCdfWith, hw]

/-- **C131** (partial). With all operations of `inverse_cdf` rounded, a uniform draw gets index `i` with its normalised weight
as probability, up to an error that is proportional to the precision, the number of particles and the logarithm of the sum of
the weights. The full claim, in which the last factor is missing, is false: `inverseCdfWith_collapse`. -/
theorem inverseCdfWith_probability_partial (hA : A.AccurateExp fl u B) (h : Rounding fl ε) (hl : IsLogits l) (hu : u ≤ 1 / 4)
    (hB : 1 ≤ B) (hτ : N * Real.exp (-B + u * B) ≤ 1 / 2) (hη : weightErr l u B ≤ 1 / 2) (i : Fin N) :
    |drawProbWith A fl l i - nw l i| ≤ 2 * (((1 + ε) ^ N - 1) * (1 + (2 * weightErr l u B + N * (2 * Real.exp (-B + u * B)))) +
      (2 * weightErr l u B + N * (2 * Real.exp (-B + u * B)))) := by
  obtain ⟨w, hw, hw0, hwf, hwe⟩ := weightsWith_near hA hl hu hB hτ hη
  rw [drawProbWith_eq hw]
  have hu0 := hA.accurate.unit_nonneg
  have hη0 : 0 ≤ weightErr l u B := by unfold weightErr sumErr; positivity
  exact drawProb_error h hw0 hwf (nw_nonneg l) (nw_sum hl)
    (roundedSum_error' h hw0 hwf (by positivity) (nw_nonneg l) (nw_sum hl) hwe (by positivity)) i

end draws

/-- Numbers much smaller than a power of two are lost when they are added to it. -/
theorem absorbs_small {p : ℕ} (hp : 0 < p) (h : RoundsToNearest p fl) {k : ℤ} {x : ℝ} (hx : |x| < 2 ^ (k - p - 1)) :
    fl (x + -(2 : ℝ) ^ k) = -(2 : ℝ) ^ k := by
  have hf : IsFloat p (-(2 : ℝ) ^ k) := ⟨-1, k, by simpa using one_lt_pow₀ (by norm_num : (1 : ℤ) < 2) hp.ne', by simp⟩
  obtain ⟨⟨m, e, hm, hy⟩, hn⟩ := h (x + -(2 : ℝ) ^ k)
  have h1 := hn _ hf
  obtain ⟨y, hy'⟩ : ∃ y, y = fl (x + -(2 : ℝ) ^ k) := ⟨_, rfl⟩
  rw [← hy'] at h1 hy ⊢
  rw [show -(2 : ℝ) ^ k - (x + -(2 : ℝ) ^ k) = -x by ring, abs_neg] at h1
  obtain ⟨q, hq⟩ : ∃ q : ℝ, q = 2 ^ (k - p - 1) := ⟨_, rfl⟩
  have hq0 : 0 < q := by rw [hq]; positivity
  have hkp : (2 : ℝ) ^ (k - p) = 2 * q := by
    rw [hq, show k - (p : ℤ) = k - p - 1 + 1 by ring, zpow_add_one₀ two_ne_zero, show k - (p : ℤ) - 1 + 1 - 1 = k - p - 1 by ring]
    ring
  have hk : (2 : ℝ) ^ k = 2 ^ p * (2 * q) := by
    rw [← hkp, ← zpow_natCast, ← zpow_add₀ two_ne_zero]
    congr 1
    ring
  have hdist : |y + 2 ^ k| < 2 * q := by
    have h2 := abs_add_le (y - (x + -(2 : ℝ) ^ k)) x
    rw [show y - (x + -(2 : ℝ) ^ k) + x = y + 2 ^ k by ring] at h2
    rw [← hq] at hx
    linarith
  have he : k - p + 1 ≤ e := by
    by_contra hc
    have h2 : (2 : ℝ) ^ e ≤ 2 ^ (k - p) := zpow_le_zpow_right₀ (by norm_num) (by omega)
    have h3 : |(m : ℝ)| ≤ 2 ^ p - 1 := by
      have : |m| ≤ 2 ^ p - 1 := by omega
      exact_mod_cast this
    have h4 : |y| ≤ (2 ^ p - 1) * (2 * q) := by
      rw [hy, abs_mul, abs_of_pos (a := (2 : ℝ) ^ e) (by positivity), ← hkp]
      exact mul_le_mul h3 h2 (by positivity) (by linarith [abs_nonneg (m : ℝ)])
    have h5 := abs_sub_abs_le_abs_sub ((2 : ℝ) ^ k) (-y)
    rw [abs_neg, sub_neg_eq_add, abs_of_pos (a := (2 : ℝ) ^ k) (by positivity), add_comm ((2 : ℝ) ^ k) y] at h5
    rw [hk] at h5 hdist
    linarith
  obtain ⟨d, hd⟩ := Int.eq_ofNat_of_zero_le (sub_nonneg.mpr he)
  have h6 : y + 2 ^ k = ((m * 2 ^ d + 2 ^ (p - 1) : ℤ) : ℝ) * (4 * q) := by
    have h7 : (2 : ℝ) ^ e = 2 ^ d * (4 * q) := by
      rw [show e = (d : ℤ) + (k - p - 1 + 2) by omega, zpow_add₀ two_ne_zero, zpow_natCast, zpow_add₀ two_ne_zero, ← hq]
      norm_num
      ring
    have h8 : (2 : ℝ) ^ p = 2 ^ (p - 1) * 2 := by rw [← pow_succ, Nat.sub_add_cancel hp]
    rw [hy, h7, hk, h8]
    push_cast
    ring
  rw [h6, abs_mul, abs_of_pos (a := 4 * q) (by positivity)] at hdist
  have h9 : |((m * 2 ^ d + 2 ^ (p - 1) : ℤ) : ℝ)| < 1 := by
    by_contra hc
    nlinarith [not_lt.mp hc]
  have h10 : m * 2 ^ d + 2 ^ (p - 1) = 0 := by
    have : |m * 2 ^ d + 2 ^ (p - 1)| < 1 := by exact_mod_cast h9
    exact Int.abs_lt_one_iff.mp this
  rw [h10, Int.cast_zero, zero_mul] at h6
  linarith

/-- C131: floating-point arithmetic with `p` bits satisfies the assumptions. -/
theorem float_accurateExp {p : ℕ} (hp : 0 < p) (h : RoundsToNearest p fl) (B : ℝ) :
    (Arith.float fl B).AccurateExp fl (2 * 2 ^ (-(p : ℤ))) B := by
  obtain ⟨ε, hε⟩ : ∃ ε : ℝ, ε = 2 ^ (-(p : ℤ)) := ⟨_, rfl⟩
  have hε0 : 0 ≤ ε := by rw [hε]; positivity
  have hε1 : ε ≤ 1 / 2 := by
    rw [hε, zpow_neg, zpow_natCast, one_div]
    refine inv_anti₀ two_pos ?_
    calc (2 : ℝ) = 2 ^ 1 := (pow_one 2).symm
      _ ≤ 2 ^ p := pow_le_pow_right₀ one_le_two hp
  have h0 : fl 0 = 0 := h.of_float (isFloat_zero p)
  refine ⟨float_accurate hp h B, fun x hx _ => ⟨fl (Real.exp x), ?_, ?_⟩, fun x hx => ⟨0, ?_, le_rfl, (Real.exp_pos _).le⟩, ?_⟩
  · simp only [Arith.float, expUnderflow, if_neg (not_lt.mpr hx), roundFl]
  · rw [← hε]
    refine Near.of_abs hε0 hε1 (Real.exp_pos x).le ?_
    have h1 := h.error hp (Real.exp x)
    rwa [abs_of_pos (Real.exp_pos x), ← hε] at h1
  · simp only [Arith.float, expUnderflow, if_pos hx, roundFl, h0]
  · intro x c hc
    have hidem : ∀ y, fl (fl y) = fl y := (h.rounding hp).idem
    cases x with
    | fin x =>
      simp only [Arith.float, expUnderflow] at hc
      split_ifs at hc <;> (cases hc; exact hidem _)
    | ninf => cases hc; exact hidem _
    | pinf => cases hc
    | nan => cases hc

/-- **C131** (the full claim is false). `N` equal log weights `-2^k` are normalised to weights one instead of `1 / N` if `2^k`
exceeds `2^p` by a factor of the order of `log N`: the logarithm of the sum is rounded to `-2^k`. Then every draw gets the
first particle. For log weights of a smaller size the error is smaller in proportion. -/
theorem inverseCdfWith_collapse [NeZero N] {p : ℕ} (hp : 0 < p) (h : RoundsToNearest p fl) (hN : N ≤ 2 ^ (p - 1)) (hB : 0 ≤ B)
    {k : ℤ} (hk : 2 * (Real.log N + 1) < 2 ^ (k - p - 1)) (hl : l = fun _ => fin (-(2 : ℝ) ^ k)) :
    IsLogits l ∧ (∀ i, nw l i = 1 / N) ∧ (∀ i, weightsWith (Arith.float fl B) l i = fin 1) ∧
      drawProbWith (Arith.float fl B) fl l 0 = 1 := by
  have hA := float_accurate hp h B
  have hNpos : (0 : ℝ) < N := by exact_mod_cast NeZero.pos N
  have hL : IsLogits l := by subst hl; exact ⟨fun _ => trivial, 0, trivial⟩
  have h0 : fl 0 = 0 := h.of_float (isFloat_zero p)
  have h1 : fl 1 = 1 := h.of_float ⟨1, 0, by simpa using one_lt_pow₀ (by norm_num : (1 : ℤ) < 2) hp.ne', by simp⟩
  have hmax : Fl.vmax l = fin (-(2 : ℝ) ^ k) := by
    obtain ⟨m, hm, ⟨j, hj⟩, -⟩ := vmax_spec hL.1 ⟨0, by rw [hl]; exact fun h => Fl.noConfusion h⟩
    rw [hm, ← hj, hl]
  have hexp : ∀ i, (Arith.float fl B).exp ((Arith.float fl B).sub (l i) (fin (-(2 : ℝ) ^ k))) = fin 1 := by
    intro i
    have h2 : (Arith.float fl B).sub (l i) (fin (-(2 : ℝ) ^ k)) = fin 0 := by
      rw [hl]
      simp [Arith.float, roundFl, h0]
    rw [h2]
    simp only [Arith.float, expUnderflow, if_neg (not_lt.mpr (neg_nonpos.mpr hB)), roundFl, Real.exp_zero, h1]
  obtain ⟨s, hs, hsn⟩ := hA.sum (fun _ : Fin N => (1 : ℝ)) fun _ => zero_le_one
  have hsum : ∑ _i : Fin N, (1 : ℝ) = N := by simp
  rw [hsum] at hsn
  have hspos := hsn.pos hNpos
  have hNu : N * (2 * (2 : ℝ) ^ (-(p : ℤ))) ≤ 1 := by
    have h2 : (N : ℝ) ≤ 2 ^ (p - 1) := by exact_mod_cast hN
    have h3 : (2 : ℝ) ^ (p - 1) * (2 * 2 ^ (-(p : ℤ))) = 1 := by
      rw [← mul_assoc, ← pow_succ, Nat.sub_add_cancel hp, zpow_neg, zpow_natCast]
      exact mul_inv_cancel₀ (by positivity)
    rw [← h3]
    gcongr
  have hlogs : |Real.log s| ≤ Real.log N + 1 := by
    have h2 := hsn.log hNpos
    have h3 : 0 ≤ Real.log N := Real.log_nonneg (by exact_mod_cast NeZero.pos N)
    have h4 := abs_add_le (Real.log s - Real.log N) (Real.log N)
    rw [sub_add_cancel, abs_of_nonneg h3] at h4
    linarith
  have hlog : (Arith.float fl B).log (fin s) = fin (fl (Real.log s)) := by
    simp only [Arith.float, log_fin s hspos, roundFl]
  have hsmall : |fl (Real.log s)| < 2 ^ (k - p - 1) := by
    have h2 := h.error hp (Real.log s)
    have h3 : (2 : ℝ) ^ (-(p : ℤ)) ≤ 1 := (h.rounding hp).eps_le
    have h4 := abs_add_le (fl (Real.log s) - Real.log s) (Real.log s)
    rw [sub_add_cancel] at h4
    have h5 : (2 : ℝ) ^ (-(p : ℤ)) * |Real.log s| ≤ 1 * |Real.log s| := mul_le_mul_of_nonneg_right h3 (abs_nonneg _)
    linarith
  have hlse : logsumexpWith (Arith.float fl B) l = fin (-(2 : ℝ) ^ k) := by
    simp only [logsumexpWith, hmax, hexp, hs, hlog]
    simp only [Arith.float, fin_add, roundFl, absorbs_small hp h hsmall]
  have hw : ∀ i, weightsWith (Arith.float fl B) l i = fin 1 := fun i => by rw [weightsWith, hlse, hexp]
  refine ⟨hL, fun i => ?_, hw, ?_⟩
  · have hc : ∀ j, (l j).lik = Real.exp (-(2 : ℝ) ^ k) := fun j => by rw [hl]; rfl
    simp only [nw, hc, Finset.sum_const, Finset.card_univ, Fintype.card_fin, nsmul_eq_mul]
    have := (Real.exp_pos (-(2 : ℝ) ^ k)).ne'
    field_simp
  · rw [drawProbWith_eq hw, drawProb]
    have h2 : {v : ℝ | v ∈ Ico (0 : ℝ) 1 ∧ inverseCdfRounded fl (fun _ : Fin 1 => v) (fun _ : Fin N => (1 : ℝ)) 0 = 0} =
        Ico 0 1 := by
      ext v
      refine ⟨fun h => h.1, fun hv => ⟨hv, ?_⟩⟩
      by_contra hc
      have h3 := (inverseCdfRounded_spec fl (fun _ : Fin N => (1 : ℝ)) (fun _ : Fin 1 => v) (fun _ _ _ => le_rfl) 0).1 0
        (Fin.pos_iff_ne_zero.mpr hc)
      have h4 : roundedSum fl (fun _ : Fin N => (1 : ℝ)) ((0 : Fin N) : ℕ) (0 : Fin N).isLt = 1 := by
        simp [roundedSum]
      rw [h4] at h3
      linarith [hv.2]
    rw [h2, Real.volume_Ico]
    simp

/-- With exact arithmetic, subtracting the maximum first makes no difference. -/
theorem logsumexpWith_exact (hl : IsLogits l) : logsumexpWith Arith.exact l = Fl.logsumexp l := by
  have hex : ∃ j, l j ≠ ninf := by
    obtain ⟨i, hi⟩ := hl.2
    exact ⟨i, fun h => by rw [h] at hi; exact hi⟩
  obtain ⟨m, hm, ⟨j₀, hj₀⟩, -⟩ := vmax_spec hl.1 hex
  have hpos : 0 < ∑ i, (l i).lik := by
    refine Finset.sum_pos' (fun i _ => lik_nonneg _) ⟨j₀, Finset.mem_univ _, ?_⟩
    rw [hj₀]
    exact Real.exp_pos m
  have hsum : ∑ i, (l i).lik * Real.exp (-m) = (∑ i, (l i).lik) * Real.exp (-m) := by rw [Finset.sum_mul]
  have he : ∀ i, Fl.exp (l i - fin m) = fin ((l i).lik * Real.exp (-m)) := by
    intro i
    rcases isLog_cases (hl.1 i) with h | ⟨g, h⟩
    · rw [h]
      simp only [lik, zero_mul]
      rfl
    · rw [h, fin_sub]
      show fin (Real.exp (g - m)) = fin (Real.exp g * Real.exp (-m))
      rw [sub_eq_add_neg, Real.exp_add]
  simp only [logsumexpWith, hm, Arith.exact, he]
  rw [sum_fin, hsum, log_fin _ (mul_pos hpos (Real.exp_pos _)), fin_add, Real.log_mul hpos.ne' (Real.exp_ne_zero _),
    Real.log_exp, neg_add_cancel_right]
  have h2 : ∀ i, Fl.exp (l i) = fin (l i).lik := by
    intro i
    rcases isLog_cases (hl.1 i) with h | ⟨g, h⟩ <;> rw [h] <;> rfl
  simp only [Fl.logsumexp, h2]
  rw [sum_fin, log_fin _ hpos]

/-- With exact arithmetic, the weights are those of `Model/Resampling.lean`. -/
theorem weightsWith_exact (hl : IsLogits l) : weightsWith Arith.exact l = weights l := by
  funext i
  simp only [weightsWith, weights, logsumexpWith_exact hl]
  rfl

/-- Non-vacuity: two particles in double precision. -/
example (h : RoundsToNearest 53 fl) :
    (Arith.float fl 700).AccurateExp fl (2 * 2 ^ (-((53 : ℕ) : ℤ))) 700 ∧ Rounding fl (2 ^ (-((53 : ℕ) : ℤ))) ∧
    IsLogits (N := 2) ![fin 0, fin (-1)] ∧ (2 * 2 ^ (-((53 : ℕ) : ℤ)) : ℝ) ≤ 1 / 4 ∧ (1 : ℝ) ≤ 700 ∧
    ((2 : ℕ) : ℝ) * Real.exp (-700 + 2 * 2 ^ (-((53 : ℕ) : ℤ)) * 700) ≤ 1 / 2 ∧
    weightErr (N := 2) ![fin 0, fin (-1)] (2 * 2 ^ (-((53 : ℕ) : ℤ))) 700 ≤ 1 / 2 := by
  have hexp : Real.exp (-700 + 2 * 2 ^ (-((53 : ℕ) : ℤ)) * 700) ≤ 1 / 600 := by
    have h1 : (-700 + 2 * 2 ^ (-((53 : ℕ) : ℤ)) * 700 : ℝ) ≤ -599 := by norm_num
    refine (Real.exp_le_exp.mpr h1).trans ?_
    rw [Real.exp_neg, one_div]
    exact inv_anti₀ (by norm_num) (by linarith [Real.add_one_le_exp (599 : ℝ)])
  refine ⟨float_accurateExp (by norm_num) h 700, h.rounding (by norm_num), ⟨?_, 0, trivial⟩, by norm_num, by norm_num,
    by push_cast; linarith, ?_⟩
  · intro i
    fin_cases i <;> trivial
  · have hlik : ∑ i, (![fin 0, fin (-1)] i).lik = 1 + Real.exp (-1) := by
      rw [Fin.sum_univ_two]
      show Real.exp 0 + Real.exp (-1) = _
      rw [Real.exp_zero]
    have hlog : |Real.log (1 + Real.exp (-1))| ≤ 1 := by
      have h1 : Real.exp (-1) ≤ 1 := Real.exp_le_one_iff.mpr (by norm_num)
      have h2 := Real.exp_pos (-1)
      rw [abs_of_nonneg (Real.log_nonneg (by linarith))]
      linarith [Real.log_le_sub_one_of_pos (by linarith : 0 < 1 + Real.exp (-1))]
    unfold weightErr sumErr
    rw [hlik]
    have h3 : (2 * 2 ^ (-((53 : ℕ) : ℤ)) : ℝ) ≤ 1 / 100000 := by norm_num
    have h4 : (0 : ℝ) ≤ 2 * 2 ^ (-((53 : ℕ) : ℤ)) := by positivity
    push_cast at *
    nlinarith

/-- Non-vacuity: a thousand particles with log weights `-2^29` (about `-5e8`) in single precision. -/
example (h : RoundsToNearest 24 fl) :
    drawProbWith (Arith.float fl 100) fl (fun _ : Fin 1000 => fin (-(2 : ℝ) ^ (29 : ℤ))) 0 = 1 := by
  refine (inverseCdfWith_collapse (by norm_num) h (by norm_num) (by norm_num) (k := 29) ?_ rfl).2.2.2
  have h1 : Real.log ((1000 : ℕ) : ℝ) < 7 := by
    rw [Real.log_lt_iff_lt_exp (by norm_num)]
    have h2 := Real.exp_one_gt_d9
    have h3 : Real.exp 7 = Real.exp 1 ^ 7 := by rw [← Real.exp_nat_mul]; norm_num
    rw [h3]
    have h4 : (2.7 : ℝ) ^ 7 ≤ Real.exp 1 ^ 7 := pow_le_pow_left₀ (by norm_num) (by linarith) 7
    norm_num at h4 ⊢
    linarith
  have h5 : (2 : ℝ) ^ ((29 : ℤ) - (24 : ℕ) - 1) = 16 := by norm_num
  rw [h5]
  linarith

end Cuthbert.Resampling
