import Mathlib.Algebra.Order.BigOperators.Group.Finset
import Mathlib.Algebra.BigOperators.Field
import Mathlib.Tactic.Linarith
import Mathlib.Tactic.FieldSimp
import Mathlib.Tactic.Ring
import Verif.Model.Resampling
import Verif.Spec.Resampling

/-! # Lemmas about weights and inverse distribution functions -/

namespace Cuthbert

noncomputable section

variable {N n : ℕ}

namespace Fl

theorem lt_def (a b : Fl) : (a < b) = Fl.lt a b := rfl
theorem le_def (a b : Fl) : (a ≤ b) = Fl.le a b := rfl

theorem ltb_iff (a b : Fl) : ltb a b = true ↔ a < b := by
  classical exact decide_eq_true_iff
theorem leb_iff (a b : Fl) : leb a b = true ↔ a ≤ b := by
  classical exact decide_eq_true_iff

@[simp] theorem ltb_fin (a b : ℝ) : ltb (fin a) (fin b) = true ↔ a < b := ltb_iff _ _
@[simp] theorem leb_fin (a b : ℝ) : leb (fin a) (fin b) = true ↔ a ≤ b := leb_iff _ _
@[simp] theorem ltb_nan (a : Fl) : ltb a nan = false := by
  rw [Bool.eq_false_iff, Ne, ltb_iff, lt_def]
  cases a <;> exact id
@[simp] theorem nan_ltb (a : Fl) : ltb nan a = false := by
  rw [Bool.eq_false_iff, Ne, ltb_iff, lt_def]
  cases a <;> exact id
@[simp] theorem leb_nan (a : Fl) : leb a nan = false := by
  rw [Bool.eq_false_iff, Ne, leb_iff, le_def]
  cases a <;> exact id
@[simp] theorem nan_leb (a : Fl) : leb nan a = false := by
  rw [Bool.eq_false_iff, Ne, leb_iff, le_def]
  cases a <;> exact id

theorem exp_of_isLog {a : Fl} (h : a.IsLog) : exp a = fin a.lik := by
  cases a <;> simp_all [IsLog, lik, exp]

theorem lik_pos {a : Fl} (h : a.IsFin) : 0 < a.lik := by
  cases a <;> simp_all [IsFin, lik, Real.exp_pos]

theorem lik_eq_zero_iff {a : Fl} (h : a.IsLog) : a.lik = 0 ↔ a = ninf := by
  cases a <;> simp_all [IsLog, lik, Real.exp_ne_zero]

end Fl

section weights

variable {l : Fin N → Fl}

theorem sum_lik_pos (h : IsLogits l) : 0 < ∑ j, (l j).lik := by
  obtain ⟨i, hi⟩ := h.2
  exact lt_of_lt_of_le (Fl.lik_pos hi)
    (Finset.single_le_sum (f := fun j => (l j).lik) (fun j _ => Fl.lik_nonneg _)
      (Finset.mem_univ i))

theorem logsumexp_eq (h : IsLogits l) :
    Fl.logsumexp l = Fl.fin (Real.log (∑ j, (l j).lik)) := by
  rw [Fl.logsumexp, Finset.sum_congr rfl fun i _ => Fl.exp_of_isLog (h.1 i), Fl.sum_fin,
    Fl.log_fin _ (sum_lik_pos h)]

theorem nw_nonneg (l : Fin N → Fl) (i : Fin N) : 0 ≤ nw l i :=
  div_nonneg (Fl.lik_nonneg _) (Finset.sum_nonneg fun _ _ => Fl.lik_nonneg _)

theorem nw_sum (h : IsLogits l) : ∑ i, nw l i = 1 := by
  simp only [nw]
  rw [← Finset.sum_div, div_self (sum_lik_pos h).ne']

theorem nw_le_one (h : IsLogits l) (i : Fin N) : nw l i ≤ 1 := by
  rw [← nw_sum h]
  exact Finset.single_le_sum (fun j _ => nw_nonneg l j) (Finset.mem_univ i)

theorem nw_eq_zero_iff (h : IsLogits l) (i : Fin N) : nw l i = 0 ↔ l i = Fl.ninf := by
  rw [nw, div_eq_zero_iff, Fl.lik_eq_zero_iff (h.1 i)]
  simp [(sum_lik_pos h).ne']

theorem weights_eq (h : IsLogits l) (i : Fin N) : Resampling.weights l i = Fl.fin (nw l i) := by
  rw [Resampling.weights, logsumexp_eq h, nw]
  have hl := h.1 i
  have hp := sum_lik_pos h
  cases hli : l i <;> simp_all [Fl.IsLog, Fl.lik]
  rw [Real.exp_sub, Real.exp_log hp]

/-- A normalised weight is `nan` or a non-negative number, whatever the log-weights. -/
theorem weights_cases (l : Fin N → Fl) (i : Fin N) :
    Resampling.weights l i = Fl.nan ∨ ∃ r : ℝ, 0 ≤ r ∧ Resampling.weights l i = Fl.fin r := by
  by_cases hall : ∀ j, (l j).IsLog
  · by_cases hex : ∃ j, (l j).IsFin
    · exact .inr ⟨_, nw_nonneg l i, weights_eq ⟨hall, hex⟩ i⟩
    · left
      have hn : ∀ j, l j = Fl.ninf := by
        intro j
        have h1 := hall j
        have h2 : ¬ (l j).IsFin := fun h => hex ⟨j, h⟩
        cases hlj : l j <;> simp_all [Fl.IsLog, Fl.IsFin]
      have : Fl.logsumexp l = Fl.ninf := by
        rw [Fl.logsumexp, Finset.sum_congr rfl fun j _ => by rw [hn j, Fl.exp_ninf],
          Fl.sum_fin, Finset.sum_const_zero, Fl.log_zero]
      rw [Resampling.weights, this, hn i]
      rfl
  · push Not at hall
    obtain ⟨j, hj⟩ := hall
    have hexp : ∀ j, Fl.exp (l j) = Fl.nan ∨ Fl.exp (l j) = Fl.pinf ∨
        ∃ r : ℝ, Fl.exp (l j) = Fl.fin r := by
      intro j; cases l j <;> simp [Fl.exp]
    -- the sum is `nan` or `+∞`
    have hsum : (∑ j, Fl.exp (l j)) = Fl.nan ∨ (∑ j, Fl.exp (l j)) = Fl.pinf := by
      have hrest : ∀ s : Finset (Fin N), (∑ j ∈ s, Fl.exp (l j)) = Fl.nan ∨
          (∑ j ∈ s, Fl.exp (l j)) = Fl.pinf ∨ ∃ r : ℝ, (∑ j ∈ s, Fl.exp (l j)) = Fl.fin r := by
        intro s
        induction s using Finset.induction_on with
        | empty => exact .inr (.inr ⟨0, rfl⟩)
        | insert a s ha ih =>
          rw [Finset.sum_insert ha]
          rcases hexp a with h | h | ⟨r, h⟩ <;> rcases ih with h' | h' | ⟨r', h'⟩ <;> rw [h, h'] <;>
            simp [Fl.add_def, Fl.add]
      rw [← Finset.add_sum_erase _ _ (Finset.mem_univ j)]
      have hej : Fl.exp (l j) = Fl.nan ∨ Fl.exp (l j) = Fl.pinf := by
        cases hlj : l j <;> simp_all [Fl.IsLog, Fl.exp]
      rcases hej with h | h <;> rcases hrest (Finset.univ.erase j) with h' | h' | ⟨r, h'⟩ <;>
        rw [h, h'] <;> simp [Fl.add_def, Fl.add]
    rcases hsum with h | h
    · left
      rw [Resampling.weights, Fl.logsumexp, h]
      simp
    · have : Fl.logsumexp l = Fl.pinf := by rw [Fl.logsumexp, h]; rfl
      rw [Resampling.weights, this]
      cases l i
      · left; rfl
      · right; exact ⟨0, le_rfl, rfl⟩
      · left; rfl
      · right; exact ⟨0, le_rfl, rfl⟩

end weights

section cum

variable {w : Fin N → ℝ}

theorem cum_eq (w : Fin N → ℝ) (i : Fin N) : cum w i = cumBelow w i + w i := by
  rw [cum, cumBelow, ← Finset.Iio_insert, Finset.sum_insert (by simp), add_comm]

theorem cum_mono (hw : ∀ i, 0 ≤ w i) {i j : Fin N} (h : i ≤ j) : cum w i ≤ cum w j :=
  Finset.sum_le_sum_of_subset_of_nonneg (Finset.Iic_subset_Iic.mpr h) fun _ _ _ => hw _

theorem cumBelow_nonneg (hw : ∀ i, 0 ≤ w i) (i : Fin N) : 0 ≤ cumBelow w i :=
  Finset.sum_nonneg fun _ _ => hw _

theorem cumBelow_succ (w : Fin N → ℝ) (i j : Fin N) (h : (j : ℕ) = i + 1) :
    cumBelow w j = cum w i := by
  rw [cumBelow, cum]
  congr 1
  ext k
  simp only [Finset.mem_Iio, Finset.mem_Iic, Fin.lt_def, Fin.le_def]
  omega

theorem cumBelow_zero (w : Fin N → ℝ) (i : Fin N) (h : (i : ℕ) = 0) : cumBelow w i = 0 := by
  rw [cumBelow, Finset.sum_eq_zero]
  intro k hk
  rw [Finset.mem_Iio, Fin.lt_def] at hk
  omega

theorem cum_last (w : Fin N → ℝ) (i : Fin N) (h : (i : ℕ) + 1 = N) : cum w i = ∑ j, w j := by
  rw [cum]
  congr 1
  ext k
  simp only [Finset.mem_Iic, Fin.le_def, Finset.mem_univ, iff_true]
  omega

theorem cum_le_sum (hw : ∀ i, 0 ≤ w i) (i : Fin N) : cum w i ≤ ∑ j, w j :=
  Finset.sum_le_sum_of_subset_of_nonneg (Finset.subset_univ _) fun _ _ _ => hw _

/-- A quantile is unique. -/
theorem IsQuantile.unique {u : ℝ} {i j : Fin N} (hi : IsQuantile w u i)
    (hj : IsQuantile w u j) : i = j := by
  rcases lt_trichotomy i j with h | h | h
  · have h1 := hj.1 i h
    rcases hi.2 with h2 | h2
    · linarith
    · rw [Fin.lt_def] at h; omega
  · exact h
  · have h1 := hi.1 j h
    rcases hj.2 with h2 | h2
    · linarith
    · rw [Fin.lt_def] at h; omega

/-- For `0 < u ≤ 1` and normalised weights the quantile is the cell that contains `u`. -/
theorem isQuantile_iff (hw : ∀ i, 0 ≤ w i) (hsum : ∑ i, w i = 1) {u : ℝ} (h0 : 0 < u)
    (h1 : u ≤ 1) (i : Fin N) :
    IsQuantile w u i ↔ cumBelow w i < u ∧ u ≤ cum w i := by
  constructor
  · rintro ⟨h, h'⟩
    constructor
    · rcases Nat.eq_zero_or_pos (i : ℕ) with hi | hi
      · rwa [cumBelow_zero w i hi]
      · rw [cumBelow_succ w ⟨i - 1, by omega⟩ i (by simp; omega)]
        exact h _ (by rw [Fin.lt_def]; simp; omega)
    · rcases h' with h' | h'
      · exact h'
      · rw [cum_last w i h', hsum]; exact h1
  · rintro ⟨h, h'⟩
    refine ⟨fun j hj => lt_of_le_of_lt ?_ h, .inl h'⟩
    refine Finset.sum_le_sum_of_subset_of_nonneg ?_ fun _ _ _ => hw _
    intro k hk
    rw [Finset.mem_Iic] at hk
    rw [Finset.mem_Iio]
    exact lt_of_le_of_lt hk hj

end cum

namespace Resampling

variable {w : Fin N → ℝ}

/-- `i` is the first index at which `b` fails, or the last index. -/
def IsRank (b : Fin N → Prop) (i : Fin N) : Prop := (∀ j < i, b j) ∧ (¬ b i ∨ (i : ℕ) + 1 = N)

theorem IsRank.unique {b : Fin N → Prop} {i j : Fin N} (hi : IsRank b i) (hj : IsRank b j) :
    i = j := by
  rcases lt_trichotomy i j with h | h | h
  · rcases hi.2 with h2 | h2
    · exact absurd (hj.1 i h) h2
    · rw [Fin.lt_def] at h; omega
  · exact h
  · rcases hj.2 with h2 | h2
    · exact absurd (hi.1 j h) h2
    · rw [Fin.lt_def] at h; omega

theorem cumsum_succ (ws : Fin N → Fl) (i j : Fin N) (h : (j : ℕ) = i + 1) :
    cumsum ws j = cumsum ws i + ws j := by
  rw [cumsum, cumsum, show (Finset.univ.filter (· ≤ j)) =
    insert j (Finset.univ.filter (· ≤ i)) from ?_, Finset.sum_insert, add_comm]
  · simp only [Finset.mem_filter, Finset.mem_univ, true_and, Fin.le_def]; omega
  · ext k
    simp only [Finset.mem_filter, Finset.mem_univ, true_and, Fin.le_def, Finset.mem_insert,
      Fin.ext_iff]
    omega

theorem cumsum_zero [NeZero N] (ws : Fin N → Fl) : cumsum ws 0 = ws 0 := by
  rw [cumsum, show (Finset.univ.filter (· ≤ (0 : Fin N))) = {0} from ?_, Finset.sum_singleton]
  ext k
  simp

/-- The inner loop. -/
theorem advance_spec (ws : Fin N → Fl) (u : Fl) : ∀ (k j : ℕ) (hj : j < N), N - j = k →
    ∃ j', ∃ hj' : j' < N, advance ws u j (cumsum ws ⟨j, hj⟩) = (j', cumsum ws ⟨j', hj'⟩) ∧
      j ≤ j' ∧ (∀ i (hi : i < N), j ≤ i → i < j' → Fl.ltb (cumsum ws ⟨i, hi⟩) u = true) ∧
      (¬ Fl.ltb (cumsum ws ⟨j', hj'⟩) u = true ∨ j' + 1 = N) := by
  intro k
  induction k with
  | zero => intro j hj h; omega
  | succ k ih =>
    intro j hj h
    rw [advance]
    by_cases hc : Fl.ltb (cumsum ws ⟨j, hj⟩) u = true ∧ j + 1 < N
    · rw [dif_pos hc, ← cumsum_succ ws ⟨j, hj⟩ ⟨j + 1, hc.2⟩ rfl]
      obtain ⟨j', hj', h1, h2, h3, h4⟩ := ih (j + 1) hc.2 (by omega)
      refine ⟨j', hj', h1, by omega, fun i hi hji hij => ?_, h4⟩
      rcases Nat.eq_or_lt_of_le hji with rfl | hlt
      · exact hc.1
      · exact h3 i hi hlt hij
    · rw [dif_neg hc]
      refine ⟨j, hj, rfl, le_rfl, fun i _ h1 h2 => by omega, ?_⟩
      by_cases hu : Fl.ltb (cumsum ws ⟨j, hj⟩) u = true
      · right
        have : ¬ j + 1 < N := fun h => hc ⟨hu, h⟩
        omega
      · exact .inl hu

variable [NeZero N]

/-- The loop variables of the CPU implementation. -/
theorem numbaState_spec (ws : Fin N → Fl) (su : Fin n → Fl)
    (hu : ∀ m m' : Fin n, m ≤ m' → ∀ i, Fl.ltb (cumsum ws i) (su m) = true →
      Fl.ltb (cumsum ws i) (su m') = true) :
    ∀ (m : ℕ) (hm : m ≤ n), ∃ j, ∃ hj : j < N,
      numbaState su ws m hm = (j, cumsum ws ⟨j, hj⟩) ∧
      (∀ k (hk : k < n), k + 1 = m →
        IsRank (fun i => Fl.ltb (cumsum ws i) (su ⟨k, hk⟩) = true) ⟨j, hj⟩) ∧
      (m = 0 → j = 0) := by
  intro m
  induction m with
  | zero =>
    intro hm
    refine ⟨0, NeZero.pos N, ?_, fun k _ h => by omega, fun _ => rfl⟩
    rw [numbaState, ← cumsum_zero ws]
    rfl
  | succ m ih =>
    intro hm
    obtain ⟨j, hj, h1, h2, h3⟩ := ih (by omega)
    obtain ⟨j', hj', g1, g2, g3, g4⟩ := advance_spec ws (su ⟨m, hm⟩) _ j hj rfl
    refine ⟨j', hj', ?_, ?_, fun h => by omega⟩
    · rw [numbaState, h1]
      exact g1
    · intro k hk hkm
      obtain rfl : k = m := by omega
      refine ⟨fun i hi => ?_, g4⟩
      rw [Fin.lt_def] at hi
      rcases Nat.lt_or_ge (i : ℕ) j with hij | hij
      · rcases Nat.eq_zero_or_pos k with rfl | hpos
        · have := h3 rfl; omega
        · have := (h2 (k - 1) (by omega) (by omega)).1 i (by rw [Fin.lt_def]; exact hij)
          exact hu _ _ (by rw [Fin.le_def]; simp) i this
      · exact g3 i i.isLt hij hi

theorem clipIdx_of_lt {j : ℕ} (hj : j < N) : (clipIdx j : Fin N) = ⟨j, hj⟩ := by
  rw [clipIdx, Fin.mk.injEq]; omega

/-- The CPU implementation. -/
theorem inverseCdfCpu_isRank (ws : Fin N → Fl) (su : Fin n → Fl)
    (hu : ∀ m m' : Fin n, m ≤ m' → ∀ i, Fl.ltb (cumsum ws i) (su m) = true →
      Fl.ltb (cumsum ws i) (su m') = true) (m : Fin n) :
    IsRank (fun i => Fl.ltb (cumsum ws i) (su m) = true) (inverseCdfCpu su ws m) := by
  obtain ⟨j, hj, h1, h2, -⟩ := numbaState_spec ws su hu (m + 1) m.isLt
  have : inverseCdfCpu su ws m = ⟨j, hj⟩ := by
    rw [inverseCdfCpu, inverseCdfNumba, h1]
    exact clipIdx_of_lt hj
  rw [this]
  exact h2 m m.isLt rfl

/-- The default implementation. -/
theorem inverseCdfDefault_isRank (ws : Fin N → Fl) (su : Fin n → Fl) (m : Fin n)
    (hdown : ∀ i j : Fin N, i ≤ j → sortLt (cumsum ws j) (su m) = true →
      sortLt (cumsum ws i) (su m) = true) :
    IsRank (fun i => sortLt (cumsum ws i) (su m) = true) (inverseCdfDefault su ws m) := by
  obtain ⟨c, hc⟩ : ∃ c, c = searchsorted (cumsum ws) (su m) := ⟨_, rfl⟩
  -- the entries below `u` are the first `c`
  have hmem : ∀ i : Fin N, sortLt (cumsum ws i) (su m) = true ↔ (i : ℕ) < c := by
    intro i
    rw [hc, searchsorted]
    constructor
    · intro hi
      have hsub : Finset.Iic i ⊆ Finset.univ.filter fun i => sortLt (cumsum ws i) (su m) = true := by
        intro j hj
        rw [Finset.mem_Iic] at hj
        simp only [Finset.mem_filter, Finset.mem_univ, true_and]
        exact hdown j i hj hi
      have := Finset.card_le_card hsub
      rw [Fin.card_Iic] at this
      omega
    · intro hi
      by_contra hcon
      have hsub : (Finset.univ.filter fun i => sortLt (cumsum ws i) (su m) = true) ⊆
          Finset.Iio i := by
        intro j hj
        simp only [Finset.mem_filter, Finset.mem_univ, true_and] at hj
        rw [Finset.mem_Iio]
        by_contra hij
        exact hcon (hdown i j (not_lt.mp hij) hj)
      have := Finset.card_le_card hsub
      rw [Fin.card_Iio] at this
      omega
  have hval : inverseCdfDefault su ws m = (clipIdx c : Fin N) := by rw [inverseCdfDefault, hc]
  rw [hval]
  have hN := NeZero.pos N
  refine ⟨fun j hj => (hmem j).mpr ?_, ?_⟩
  · rw [Fin.lt_def] at hj
    simp only [clipIdx] at hj
    omega
  · by_cases hcN : c < N
    · left
      rw [clipIdx_of_lt hcN]
      intro hcon
      have := (hmem ⟨c, hcN⟩).mp hcon
      simp at this
    · right
      simp only [clipIdx]
      omega

omit [NeZero N] in
theorem cumsum_fin (w : Fin N → ℝ) (i : Fin N) :
    cumsum (fun i => Fl.fin (w i)) i = Fl.fin (cum w i) := by
  rw [cumsum, Fl.sum_fin, cum]
  congr 2
  ext j
  simp

omit [NeZero N] in
theorem sortLt_fin (a b : ℝ) : sortLt (Fl.fin a) (Fl.fin b) = true ↔ a < b := by
  simp [sortLt]

omit [NeZero N] in
theorem sortLt_eq_ltb (a : Fl) (b : ℝ) : sortLt a (Fl.fin b) = Fl.ltb a (Fl.fin b) := by
  cases a <;> simp [sortLt]

omit [NeZero N] in
/-- Cumulative sums of values that are `nan` or non-negative grow until they become `nan`. -/
theorem cumsum_down (ws : Fin N → Fl) (h : ∀ i, ws i = Fl.nan ∨ ∃ r : ℝ, 0 ≤ r ∧ ws i = Fl.fin r)
    (u : ℝ) {i j : Fin N} (hij : i ≤ j) (hj : Fl.ltb (cumsum ws j) (Fl.fin u) = true) :
    Fl.ltb (cumsum ws i) (Fl.fin u) = true := by
  have hfin : ∀ k ≤ j, ∃ r : ℝ, 0 ≤ r ∧ ws k = Fl.fin r := by
    intro k hk
    rcases h k with hk' | hk'
    · rw [cumsum, Fl.sum_nan _ _ k (by simpa using hk) hk'] at hj
      simp at hj
    · exact hk'
  choose! r hr0 hr using hfin
  have hsum : ∀ k ≤ j, cumsum ws k =
      Fl.fin (∑ t ∈ Finset.univ.filter (· ≤ k), r t) := by
    intro k hk
    rw [cumsum, ← Fl.sum_fin]
    exact Finset.sum_congr rfl fun t ht => hr t (le_trans (by simpa using ht) hk)
  rw [hsum j le_rfl, Fl.ltb_fin] at hj
  rw [hsum i hij, Fl.ltb_fin]
  refine lt_of_le_of_lt (Finset.sum_le_sum_of_subset_of_nonneg ?_ ?_) hj
  · intro t ht
    simp only [Finset.mem_filter, Finset.mem_univ, true_and] at ht ⊢
    exact le_trans ht hij
  · intro t ht _
    exact hr0 t (by simpa using ht)

omit [NeZero N] in
theorem ltb_mono (a : Fl) {u v : ℝ} (h : u ≤ v) (hu : Fl.ltb a (Fl.fin u) = true) :
    Fl.ltb a (Fl.fin v) = true := by
  cases a
  · simp at hu
  · exact (Fl.ltb_iff _ _).mpr trivial
  · exact absurd ((Fl.ltb_iff _ _).mp hu) (by simp [Fl.lt_def, Fl.lt])
  · rw [Fl.ltb_fin] at hu ⊢
    exact lt_of_lt_of_le hu h

/-- `inverse_cdf` on either platform, for sorted draws and arbitrary log-weights. -/
theorem inverseCdf_isRank (pf : Platform) (l : Fin N → Fl) (u : Fin n → ℝ) (hu : Monotone u)
    (m : Fin n) :
    IsRank (fun i => Fl.ltb (cumsum (weights l) i) (Fl.fin (u m)) = true)
      (inverseCdf pf (fun i => Fl.fin (u i)) l m) := by
  cases pf
  · exact inverseCdfCpu_isRank _ _ (fun m m' h i => ltb_mono _ (hu h)) m
  · have := inverseCdfDefault_isRank (weights l) (fun i => Fl.fin (u i)) m (fun i j hij => by
      simp only [sortLt_eq_ltb]
      exact cumsum_down _ (weights_cases l) _ hij)
    simp only [sortLt_eq_ltb] at this
    exact this

/-- `inverse_cdf` on either platform, for sorted draws and proper log-weights. -/
theorem inverseCdf_isQuantile (pf : Platform) {l : Fin N → Fl} (hl : IsLogits l) (u : Fin n → ℝ)
    (hu : Monotone u) (m : Fin n) :
    IsQuantile (nw l) (u m) (inverseCdf pf (fun i => Fl.fin (u i)) l m) := by
  have h := inverseCdf_isRank pf l u hu m
  have hw : weights l = fun i => Fl.fin (nw l i) := funext fun i => weights_eq hl i
  simp only [hw, cumsum_fin, Fl.ltb_fin] at h
  exact ⟨h.1, h.2.imp not_lt.mp id⟩

end Resampling

end

end Cuthbert
