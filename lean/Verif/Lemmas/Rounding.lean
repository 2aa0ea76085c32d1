import Verif.Spec.Rounding
import Mathlib.Data.Int.Log
import Mathlib.Algebra.Order.Archimedean.Real.Basic
import Mathlib.Algebra.Order.Field.Power
import Mathlib.Algebra.Order.Round
import Mathlib.Tactic.Linarith
import Mathlib.Tactic.Ring
import Mathlib.Tactic.FieldSimp
import Mathlib.Tactic.Positivity
import Mathlib.Tactic.NormNum

/-!
# Rounding to nearest
-/

namespace Cuthbert

variable {p : ℕ} {fl : ℝ → ℝ}

theorem RoundsToNearest.of_float (h : RoundsToNearest p fl) {x : ℝ} (hx : IsFloat p x) : fl x = x := by
  have h1 := (h x).2 x hx
  rw [sub_self, abs_zero] at h1
  linarith [abs_eq_zero.mp (le_antisymm h1 (abs_nonneg _))]

theorem RoundsToNearest.mono (h : RoundsToNearest p fl) : Monotone fl := by
  intro x y hxy
  rcases hxy.eq_or_lt with rfl | hlt
  · exact le_rfl
  by_contra hc
  have hc : fl y < fl x := not_le.mp hc
  have h1 := (h x).2 _ (h y).1
  have h2 := (h y).2 _ (h x).1
  have h3 := sq_le_sq.mpr h1
  have h4 := sq_le_sq.mpr h2
  nlinarith [mul_pos (sub_pos.mpr hc) (sub_pos.mpr hlt)]

/-- The integer multiple of the unit of `x` that is nearest to `x`. -/
noncomputable def roundBits (p : ℕ) (x : ℝ) : ℝ :=
  round (x / 2 ^ (Int.log 2 |x| - p + 1)) * 2 ^ (Int.log 2 |x| - p + 1)

theorem abs_round_mul_sub (x : ℝ) (e : ℤ) : |(round (x / 2 ^ e) : ℝ) * 2 ^ e - x| ≤ 2 ^ e / 2 := by
  have he : (0 : ℝ) < 2 ^ e := by positivity
  have h1 := abs_sub_round (x / 2 ^ e)
  have h2 : (round (x / 2 ^ e) : ℝ) * 2 ^ e - x = -((x / 2 ^ e - round (x / 2 ^ e)) * 2 ^ e) := by
    field_simp
    ring
  rw [h2, abs_neg, abs_mul, abs_of_pos he]
  nlinarith

theorem roundBits_error (p : ℕ) {x : ℝ} (hx : x ≠ 0) : |roundBits p x - x| ≤ 2 ^ (-(p : ℤ)) * |x| := by
  have h1 := abs_round_mul_sub x (Int.log 2 |x| - p + 1)
  have h2 : (2 : ℝ) ^ (Int.log 2 |x| - p + 1) / 2 = 2 ^ (-(p : ℤ)) * 2 ^ Int.log 2 |x| := by
    rw [← zpow_add₀ (two_ne_zero), zpow_add₀ (two_ne_zero), zpow_one, mul_div_assoc, div_self two_ne_zero, mul_one]
    congr 1
    ring
  have h3 : (2 : ℝ) ^ Int.log 2 |x| ≤ |x| := by
    exact_mod_cast Int.zpow_log_le_self (R := ℝ) (by norm_num : 1 < 2) (abs_pos.mpr hx)
  rw [roundBits]
  refine h1.trans (h2.le.trans ?_)
  gcongr

theorem roundBits_isFloat {p : ℕ} (hp : 0 < p) (x : ℝ) : IsFloat p (roundBits p x) := by
  obtain ⟨e, he⟩ : ∃ e, e = Int.log 2 |x| - p + 1 := ⟨_, rfl⟩
  obtain ⟨r, hr⟩ : ∃ r, r = round (x / 2 ^ e) := ⟨_, rfl⟩
  have hr' : roundBits p x = r * 2 ^ e := by rw [roundBits, hr, he]
  rw [hr']
  have h0 : (0 : ℝ) < 2 ^ e := by positivity
  -- the quotient is below `2 ^ p`
  have h1 : |x / 2 ^ e| ≤ ((2 ^ p : ℤ) : ℝ) := by
    rw [abs_div, abs_of_pos h0, div_le_iff₀ h0]
    have h2 : |x| < 2 ^ (Int.log 2 |x| + 1) := by
      exact_mod_cast Int.lt_zpow_succ_log_self (R := ℝ) (by norm_num : 1 < 2) |x|
    have h3 : ((2 ^ p : ℤ) : ℝ) * 2 ^ e = 2 ^ (Int.log 2 |x| + 1) := by
      push_cast
      rw [← zpow_natCast, ← zpow_add₀ two_ne_zero, he]
      congr 1
      ring
    rw [h3]
    exact h2.le
  have h4 : |r| ≤ 2 ^ p := by
    have h6 := abs_sub_round (x / 2 ^ e)
    rw [← hr, abs_le] at h6
    rw [abs_le] at h1 ⊢
    constructor
    · have : ((-2 ^ p - 1 : ℤ) : ℝ) < r := by
        push_cast at h1 ⊢
        linarith
      have : -2 ^ p - 1 < r := by exact_mod_cast this
      linarith
    · have : (r : ℝ) < ((2 ^ p + 1 : ℤ) : ℝ) := by
        push_cast at h1 ⊢
        linarith
      have : r < 2 ^ p + 1 := by exact_mod_cast this
      linarith
  rcases h4.lt_or_eq with h5 | h5
  · exact ⟨r, e, h5, rfl⟩
  · rcases abs_eq (by positivity : (0 : ℤ) ≤ 2 ^ p) |>.mp h5 with h6 | h6
    · refine ⟨1, e + p, by simpa using one_lt_pow₀ (by norm_num : (1 : ℤ) < 2) hp.ne', ?_⟩
      rw [h6, zpow_add₀ two_ne_zero, zpow_natCast]
      push_cast
      ring
    · refine ⟨-1, e + p, by simpa using one_lt_pow₀ (by norm_num : (1 : ℤ) < 2) hp.ne', ?_⟩
      rw [h6, zpow_add₀ two_ne_zero, zpow_natCast]
      push_cast
      ring

theorem isFloat_zero (p : ℕ) : IsFloat p 0 := ⟨0, 0, by simp, by simp⟩

/-- Every nearest rounding with `p` bits has relative error `2 ^ (-p)`. -/
theorem RoundsToNearest.error (hp : 0 < p) (h : RoundsToNearest p fl) (x : ℝ) :
    |fl x - x| ≤ 2 ^ (-(p : ℤ)) * |x| := by
  rcases eq_or_ne x 0 with rfl | hx
  · rw [h.of_float (isFloat_zero p)]
    simp
  · exact ((h x).2 _ (roundBits_isFloat hp x)).trans (roundBits_error p hx)

theorem RoundsToNearest.rounding (hp : 0 < p) (h : RoundsToNearest p fl) : Rounding fl (2 ^ (-(p : ℤ))) where
  eps_nonneg := by positivity
  eps_le := by
    rw [zpow_neg, zpow_natCast]
    exact inv_le_one_of_one_le₀ (one_le_pow₀ (by norm_num))
  mono := h.mono
  idem x := h.of_float (h x).1
  add_error x y _ _ := h.error hp (x + y)

/-- There is a nearest rounding. -/
theorem roundBits_nearest (hp : 0 < p) : RoundsToNearest p (roundBits p) := by
  refine fun x => ⟨roundBits_isFloat hp x, ?_⟩
  rintro y ⟨m, e', hm, rfl⟩
  rcases eq_or_ne x 0 with rfl | hx
  · have : roundBits p 0 = 0 := by simp [roundBits]
    rw [this, sub_zero, abs_zero]
    exact abs_nonneg _
  obtain ⟨e, he⟩ : ∃ e, e = Int.log 2 |x| - p + 1 := ⟨_, rfl⟩
  have h0 : (0 : ℝ) < 2 ^ e := by positivity
  -- no multiple of the unit is nearer
  have hmul : ∀ r : ℤ, |roundBits p x - x| ≤ |r * 2 ^ e - x| := by
    intro r
    have h1 := round_le (x / 2 ^ e) r
    have h2 : ∀ r : ℤ, |(r : ℝ) * 2 ^ e - x| = |x / 2 ^ e - r| * 2 ^ e := by
      intro r
      rw [← abs_of_pos h0, ← abs_mul, abs_of_pos h0, abs_sub_comm]
      congr 1
      field_simp
    rw [roundBits, ← he, h2, h2]
    gcongr
  rcases le_or_gt e e' with hee | hee
  · obtain ⟨d, hd⟩ := Int.eq_ofNat_of_zero_le (sub_nonneg.mpr hee)
    have h1 := hmul (m * 2 ^ d)
    have h2 : ((m * 2 ^ d : ℤ) : ℝ) * 2 ^ e = m * 2 ^ e' := by
      have : e' = d + e := by omega
      rw [this, zpow_add₀ two_ne_zero, zpow_natCast]
      push_cast
      ring
    rwa [h2] at h1
  · -- a smaller unit: then `|y| < B ≤ |x|` for a power of two `B`
    have hB : (2 : ℝ) ^ Int.log 2 |x| ≤ |x| := by
      exact_mod_cast Int.zpow_log_le_self (R := ℝ) (by norm_num : 1 < 2) (abs_pos.mpr hx)
    have hBe : (2 : ℝ) ^ Int.log 2 |x| = ((2 ^ (p - 1) : ℤ) : ℝ) * 2 ^ e := by
      push_cast
      rw [← zpow_natCast, ← zpow_add₀ two_ne_zero, he]
      congr 1
      omega
    have hy : |(m : ℝ) * 2 ^ e'| ≤ 2 ^ Int.log 2 |x| := by
      have h1 : |(m : ℝ)| ≤ 2 ^ p := by exact_mod_cast hm.le
      have h2 : (2 : ℝ) ^ e' ≤ 2 ^ (e - 1) := zpow_le_zpow_right₀ (by norm_num) (by omega)
      have h3 : (2 : ℝ) ^ Int.log 2 |x| = 2 ^ p * 2 ^ (e - 1) := by
        rw [← zpow_natCast, ← zpow_add₀ two_ne_zero, he]
        congr 1
        omega
      rw [abs_mul, abs_of_pos (by positivity : (0 : ℝ) < 2 ^ e'), h3]
      gcongr
    have h4 : |roundBits p x - x| ≤ |x| - 2 ^ Int.log 2 |x| := by
      rcases le_or_gt 0 x with hs | hs
      · have h5 := hmul (2 ^ (p - 1))
        rw [← hBe] at h5
        rw [abs_of_nonneg hs] at h5 hB ⊢
        rw [abs_sub_comm (2 ^ Int.log 2 x), abs_of_nonneg (a := x - _) (by linarith)] at h5
        exact h5
      · have h5 := hmul (-2 ^ (p - 1))
        have h6 : ((-2 ^ (p - 1) : ℤ) : ℝ) * 2 ^ e = -2 ^ Int.log 2 |x| := by
          rw [hBe]
          push_cast
          ring
        rw [h6] at h5
        rw [abs_of_neg hs] at h5 hB ⊢
        rw [abs_of_nonneg (a := -_ - x) (by linarith)] at h5
        linarith
    have h7 := abs_sub_abs_le_abs_sub x (m * 2 ^ e')
    rw [abs_sub_comm x] at h7
    linarith

/-- Adding less than half a unit changes nothing. -/
theorem RoundsToNearest.absorbs (hp : 0 < p) (h : RoundsToNearest p fl) :
    fl (1 / 2 + 2 ^ (-(p : ℤ) - 2)) = 1 / 2 := by
  obtain ⟨q, hq⟩ : ∃ q : ℝ, q = 2 ^ (-(p : ℤ)) := ⟨_, rfl⟩
  have hq0 : 0 < q := by rw [hq]; positivity
  have hq4 : (2 : ℝ) ^ (-(p : ℤ) - 2) = q / 4 := by
    rw [zpow_sub₀ two_ne_zero, hq]
    norm_num
  have hhalf : (1 : ℝ) / 2 = (2 ^ (p - 1) : ℤ) * q := by
    push_cast
    rw [hq, ← zpow_natCast, ← zpow_add₀ two_ne_zero]
    rw [show ((p - 1 : ℕ) : ℤ) + -(p : ℤ) = -1 by omega]
    norm_num
  have hf : IsFloat p (1 / 2) := ⟨1, -1, by simpa using one_lt_pow₀ (by norm_num : (1 : ℤ) < 2) hp.ne', by norm_num⟩
  obtain ⟨⟨m, e, hm, hy⟩, hn⟩ := h (1 / 2 + 2 ^ (-(p : ℤ) - 2))
  have h1 := hn _ hf
  rw [hq4] at h1 hy ⊢
  rw [show (1 : ℝ) / 2 - (1 / 2 + q / 4) = -(q / 4) by ring, abs_neg, abs_of_pos (a := q / 4) (by positivity), abs_le] at h1
  obtain ⟨y, hy'⟩ : ∃ y, y = fl (1 / 2 + q / 4) := ⟨_, rfl⟩
  rw [← hy'] at h1 hy ⊢
  have hy1 : 1 / 2 ≤ y := by linarith
  have hy2 : y ≤ 1 / 2 + q / 2 := by linarith
  -- `y` is a multiple of `2 ^ (-p)`
  have he : -(p : ℤ) ≤ e := by
    by_contra hc
    have hc : e ≤ -(p : ℤ) - 1 := by omega
    have h2 : (2 : ℝ) ^ e ≤ 2 ^ (-(p : ℤ) - 1) := zpow_le_zpow_right₀ (by norm_num) hc
    have h3 : (m : ℝ) < 2 ^ p := by exact_mod_cast (le_abs_self m).trans_lt hm
    have h4 : (2 : ℝ) ^ p * 2 ^ (-(p : ℤ) - 1) = 1 / 2 := by
      rw [← zpow_natCast, ← zpow_add₀ two_ne_zero]
      rw [show (p : ℤ) + (-(p : ℤ) - 1) = -1 by ring]
      norm_num
    have h5 : (0 : ℝ) < 2 ^ e := by positivity
    have h6 : (m : ℝ) * 2 ^ e < 2 ^ p * 2 ^ e := mul_lt_mul_of_pos_right h3 h5
    have h7 : (2 : ℝ) ^ p * 2 ^ e ≤ 2 ^ p * 2 ^ (-(p : ℤ) - 1) := by gcongr
    linarith
  obtain ⟨d, hd⟩ := Int.eq_ofNat_of_zero_le (sub_nonneg.mpr he)
  have hym : y = ((m * 2 ^ d : ℤ) : ℝ) * q := by
    rw [hy, hq, show e = d + -(p : ℤ) by omega, zpow_add₀ two_ne_zero, zpow_natCast]
    push_cast
    ring
  have h8 : (m * 2 ^ d : ℤ) < 2 ^ (p - 1) + 1 := by
    have : ((m * 2 ^ d : ℤ) : ℝ) * q < ((2 ^ (p - 1) + 1 : ℤ) : ℝ) * q := by
      rw [← hym, Int.cast_add, add_mul, ← hhalf]
      push_cast
      linarith
    exact_mod_cast lt_of_mul_lt_mul_right this hq0.le
  have h9 : y ≤ 1 / 2 := by
    rw [hym, hhalf]
    have : ((m * 2 ^ d : ℤ) : ℝ) ≤ ((2 ^ (p - 1) : ℤ) : ℝ) := by exact_mod_cast Int.lt_add_one_iff.mp h8
    gcongr
  linarith

end Cuthbert
