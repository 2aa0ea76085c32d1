import Mathlib.Data.Int.Interval
import Mathlib.Data.List.FinRange
import Mathlib.Algebra.Order.Chebyshev
import Mathlib.Data.Fin.VecNotation
import Mathlib.Algebra.Order.BigOperators.Ring.Finset
import Mathlib.Tactic.NormNum
import Verif.Lemmas.Resampling

/-!
# Resampling: deterministic properties

C45 (`inverse_cdf`), C46 (systematic counts), C48 (zero weights), C49 (conditional resampling
keeps the pivot), C51 (consistent outputs) and C52 (effective sample size).
-/

namespace Cuthbert.Resampling
open Cuthbert

noncomputable section

variable {K X : Type*} {N n : ℕ} [NeZero N]

/-! ## C45 -/

/-- C45: for sorted draws and proper log-weights `inverse_cdf` returns, on either platform, the
smallest index whose cumulative normalised weight reaches the draw (the last one if none does). -/
theorem inverse_cdf_quantile (pf : Platform) {l : Fin N → Fl} (hl : IsLogits l) (u : Fin n → ℝ)
    (hu : Monotone u) (m : Fin n) (i : Fin N) :
    inverseCdf pf (fun m => Fl.fin (u m)) l m = i ↔ IsQuantile (nw l) (u m) i :=
  ⟨fun h => h ▸ inverseCdf_isQuantile pf hl u hu m,
    fun h => (inverseCdf_isQuantile pf hl u hu m).unique h⟩

/-- C45: for draws in `(0, 1]` the index is the cell of the cumulative weights that contains the
draw. -/
theorem inverse_cdf_cell (pf : Platform) {l : Fin N → Fl} (hl : IsLogits l) (u : Fin n → ℝ)
    (hu : Monotone u) (m : Fin n) (h0 : 0 < u m) (h1 : u m ≤ 1) (i : Fin N) :
    inverseCdf pf (fun m => Fl.fin (u m)) l m = i ↔
      cumBelow (nw l) i < u m ∧ u m ≤ cum (nw l) i := by
  rw [inverse_cdf_quantile pf hl u hu, isQuantile_iff (nw_nonneg l) (nw_sum hl) h0 h1]

/-- C45: the indices are sorted. -/
theorem inverse_cdf_monotone (pf : Platform) (l : Fin N → Fl) (u : Fin n → ℝ) (hu : Monotone u) :
    Monotone (inverseCdf pf (fun m => Fl.fin (u m)) l) := by
  intro m m' h
  have h1 := inverseCdf_isRank pf l u hu m
  have h2 := inverseCdf_isRank pf l u hu m'
  by_contra hcon
  have hlt := not_le.mp hcon
  rcases h2.2 with h3 | h3
  · exact h3 (ltb_mono _ (hu h) (h1.1 _ hlt))
  · rw [Fin.lt_def] at hlt; omega

/-- C45: the CPU and the default implementation return the same indices for sorted draws, whatever
the log-weights (`nan` and infinities included). -/
theorem inverse_cdf_platforms_agree (l : Fin N → Fl) (u : Fin n → ℝ) (hu : Monotone u) :
    inverseCdf .cpu (fun m => Fl.fin (u m)) l = inverseCdf .other (fun m => Fl.fin (u m)) l :=
  funext fun m => (inverseCdf_isRank .cpu l u hu m).unique (inverseCdf_isRank .other l u hu m)

/-- The weights of two equally likely particles. -/
theorem isLogits_pair : IsLogits (![Fl.fin 0, Fl.fin 0] : Fin 2 → Fl) :=
  ⟨fun i => by fin_cases i <;> trivial, 0, trivial⟩

theorem nw_pair (i : Fin 2) : nw (![Fl.fin 0, Fl.fin 0] : Fin 2 → Fl) i = 1 / 2 := by
  fin_cases i <;> (simp [nw, Fl.lik]; norm_num)

/-- Hypotheses of C45 are met: two equally likely particles and two sorted draws. -/
example : IsLogits (![Fl.fin 0, Fl.fin 0] : Fin 2 → Fl) ∧
    Monotone (![1 / 4, 3 / 4] : Fin 2 → ℝ) ∧
    inverseCdf .cpu (fun m => Fl.fin ((![1 / 4, 3 / 4] : Fin 2 → ℝ) m)) ![Fl.fin 0, Fl.fin 0] 1
      = 1 := by
  have hm : Monotone (![1 / 4, 3 / 4] : Fin 2 → ℝ) := by
    intro a b h
    fin_cases a <;> fin_cases b <;> (simp_all; try norm_num)
  refine ⟨isLogits_pair, hm, ?_⟩
  rw [inverse_cdf_cell .cpu isLogits_pair _ hm 1 (by norm_num) (by norm_num)]
  have h1 : cumBelow (nw (![Fl.fin 0, Fl.fin 0] : Fin 2 → Fl)) 1 = 1 / 2 := by
    rw [cumBelow_succ _ 0 1 rfl, cum_eq, cumBelow_zero _ _ rfl, nw_pair]; norm_num
  rw [cum_eq, h1, nw_pair]
  norm_num

/-- The precondition that the draws are sorted matters: on a CPU the index of a draw is never
smaller than that of an earlier draw. -/
theorem inverse_cdf_cpu_needs_sorted :
    inverseCdf .cpu (fun m => Fl.fin ((![3 / 4, 1 / 4] : Fin 2 → ℝ) m)) ![Fl.fin 0, Fl.fin 0] 1
      = 1 ∧
    inverseCdf .other (fun m => Fl.fin ((![3 / 4, 1 / 4] : Fin 2 → ℝ) m)) ![Fl.fin 0, Fl.fin 0] 1
      = 0 := by
  have hw : weights (![Fl.fin 0, Fl.fin 0] : Fin 2 → Fl) = fun _ => Fl.fin (1 / 2) :=
    funext fun i => by rw [weights_eq isLogits_pair, nw_pair]
  constructor
  · have h1 : advance (fun _ : Fin 2 => Fl.fin (1 / 2)) (Fl.fin (3 / 4)) 0 (Fl.fin (1 / 2)) =
        (1, Fl.fin (1 / 2) + Fl.fin (1 / 2)) := by
      rw [advance, dif_pos ⟨(Fl.ltb_fin _ _).mpr (by norm_num), by norm_num⟩, advance,
        dif_neg (by norm_num)]
    have h2 : advance (fun _ : Fin 2 => Fl.fin (1 / 2)) (Fl.fin (1 / 4)) 1
        (Fl.fin (1 / 2) + Fl.fin (1 / 2)) = (1, Fl.fin (1 / 2) + Fl.fin (1 / 2)) := by
      rw [advance, dif_neg (by norm_num)]
    rw [inverseCdf, hw, inverseCdfCpu, inverseCdfNumba]
    simp only [numbaState, Fin.mk_zero, Fin.mk_one, Matrix.cons_val_zero,
      Matrix.cons_val_one, h1, h2]
    rfl
  · have h := inverseCdf_isQuantile .other isLogits_pair (n := 1) (fun _ => 1 / 4)
      (fun _ _ _ => le_rfl) 0
    have heq : inverseCdf .other (fun m => Fl.fin ((![3 / 4, 1 / 4] : Fin 2 → ℝ) m))
        ![Fl.fin 0, Fl.fin 0] 1 =
        inverseCdf .other (fun _ : Fin 1 => Fl.fin (1 / 4)) ![Fl.fin 0, Fl.fin 0] 0 := by
      simp [inverseCdf, inverseCdfDefault]
    rw [heq]
    refine h.unique ((isQuantile_iff (nw_nonneg _) (nw_sum isLogits_pair) (by norm_num)
      (by norm_num) 0).mpr ?_)
    rw [cum_eq, cumBelow_zero _ _ rfl, nw_pair]
    norm_num

/-! ## Draws of systematic and multinomial resampling -/

omit [NeZero N] in
theorem systematicUniforms_eq (u : ℝ) (m : Fin n) :
    systematicUniforms u n m = Fl.fin ((u + m) / n) := by
  have hn : (n : ℝ) ≠ 0 := by have := m.pos; positivity
  rw [systematicUniforms, Fl.fin_add, Fl.fin_div _ _ hn]

omit [NeZero N] in
theorem systematic_monotone (u : ℝ) : Monotone fun m : Fin n => (u + (m : ℕ)) / (n : ℝ) := by
  intro a b h
  have hab : ((a : ℕ) : ℝ) ≤ (b : ℕ) := by exact_mod_cast h
  simp only
  gcongr

/-- The index that systematic resampling returns in slot `m`, for a draw `0 < u < 1`. -/
theorem systematic_idx (pf : Platform) {l : Fin N → Fl} (hl : IsLogits l) {u : ℝ} (h0 : 0 < u)
    (h1 : u < 1) (m : Fin n) (i : Fin N) :
    inverseCdf pf (systematicUniforms u n) l m = i ↔
      cumBelow (nw l) i < (u + m) / n ∧ (u + m) / n ≤ cum (nw l) i := by
  have hn : (0 : ℝ) < n := by exact_mod_cast m.pos
  have hm : (m : ℝ) + 1 ≤ n := by exact_mod_cast m.isLt
  rw [show systematicUniforms u n = fun m : Fin n => Fl.fin ((u + (m : ℕ)) / n) from
    funext fun m => systematicUniforms_eq u m]
  refine inverse_cdf_cell pf hl (fun m : Fin n => (u + (m : ℕ)) / n) (systematic_monotone u) m ?_ ?_ i
  · positivity
  · rw [div_le_one hn]; linarith

/-! ## C46 -/

/-- The number of integers `m` with `a < m ≤ b`, shifted by `u` and scaled. -/
theorem card_strata {a b u : ℝ} (ha : 0 ≤ a) (hab : a ≤ b) (hb : b ≤ 1) (h0 : 0 < u)
    (h1 : u < 1) (hn : 0 < n) :
    ((Finset.univ.filter fun m : Fin n => a < (u + m) / n ∧ (u + m) / n ≤ b).card : ℤ) =
      ⌊n * b - u⌋ - ⌊n * a - u⌋ := by
  have hn' : (0 : ℝ) < n := by exact_mod_cast hn
  have hle : ⌊n * a - u⌋ ≤ ⌊n * b - u⌋ := Int.floor_le_floor (by nlinarith)
  rw [← Int.toNat_of_nonneg (sub_nonneg.mpr hle), ← Int.card_Ioc]
  norm_cast
  refine Finset.card_bij (fun m _ => ((m : ℕ) : ℤ)) ?_ ?_ ?_
  · intro m hm
    simp only [Finset.mem_filter, Finset.mem_univ, true_and] at hm
    rw [lt_div_iff₀ hn', div_le_iff₀ hn'] at hm
    rw [Finset.mem_Ioc, Int.floor_lt, Int.le_floor]
    push_cast
    constructor <;> linarith [hm.1, hm.2]
  · intro m _ m' _ h
    ext
    exact_mod_cast h
  · intro z hz
    rw [Finset.mem_Ioc, Int.floor_lt, Int.le_floor] at hz
    have hz0 : 0 ≤ z := by
      have h2 : (-1 : ℝ) < z := by nlinarith [hz.1]
      have : (-1 : ℤ) < z := by exact_mod_cast h2
      omega
    have hzn : z < n := by
      have h2 : (z : ℝ) < n := by nlinarith [hz.2]
      exact_mod_cast h2
    refine ⟨⟨z.toNat, by omega⟩, ?_, by simp [hz0]⟩
    have hcast : ((z.toNat : ℕ) : ℝ) = z := by
      have : ((z.toNat : ℤ) : ℝ) = z := by rw [Int.toNat_of_nonneg hz0]
      exact_mod_cast this
    simp only [Finset.mem_filter, Finset.mem_univ, true_and, hcast]
    rw [lt_div_iff₀ hn', div_le_iff₀ hn']
    constructor <;> linarith [hz.1, hz.2]

/-- The number of copies of particle `i`. -/
def copies (r : Resampled N n X) (i : Fin N) : ℕ := (Finset.univ.filter fun m => r.idx m = i).card

/-- The number of copies under systematic resampling with draw `u`. -/
theorem systematic_copies (pf : Platform) {l : Fin N → Fl} (hl : IsLogits l) {u : ℝ} (h0 : 0 < u)
    (h1 : u < 1) (hn : 0 < n) (i : Fin N) :
    ((Finset.univ.filter fun m => inverseCdf pf (systematicUniforms u n) l m = i).card : ℤ) =
      ⌊n * cum (nw l) i - u⌋ - ⌊n * cumBelow (nw l) i - u⌋ := by
  rw [← card_strata (cumBelow_nonneg (nw_nonneg l) i)
    (by rw [cum_eq]; linarith [nw_nonneg l i])
    (by rw [← nw_sum hl]; exact cum_le_sum (nw_nonneg l) i) h0 h1 hn]
  congr 2
  ext m
  simp only [Finset.mem_filter, Finset.mem_univ, true_and, systematic_idx pf hl h0 h1]

/-- C46: under systematic resampling the number of copies of particle `i` is `⌊n w_i⌋` or
`⌈n w_i⌉`, whatever the draw in `(0, 1)`. -/
theorem systematic_counts (rng : Rng K) (pf : Platform) (key : K) (hu : 0 < rng.uniform0 key)
    {l : Fin N → Fl} (hl : IsLogits l) (pos : Fin N → X) (hn : 0 < n) (i : Fin N) :
    ∃ r, systematic rng pf key l pos n = .ok r ∧
      ((copies r i : ℤ) = ⌊n * nw l i⌋ ∨ (copies r i : ℤ) = ⌈n * nw l i⌉) := by
  refine ⟨_, rfl, ?_⟩
  rw [copies, systematic_copies pf hl hu (rng.uniform0_mem key).2 hn]
  obtain ⟨u, hu'⟩ : ∃ u, u = rng.uniform0 key := ⟨_, rfl⟩
  rw [← hu', cum_eq]
  obtain ⟨a, ha⟩ : ∃ a, a = n * cumBelow (nw l) i - u := ⟨_, rfl⟩
  obtain ⟨d, hd⟩ : ∃ d, d = n * nw l i := ⟨_, rfl⟩
  rw [show n * (cumBelow (nw l) i + nw l i) - u = a + d by rw [ha, hd]; ring, ← ha, ← hd]
  have h1 : ⌊a⌋ + ⌊d⌋ ≤ ⌊a + d⌋ := Int.le_floor_add a d
  have h2 : ⌊a + d⌋ ≤ ⌊a⌋ + ⌈d⌉ := by
    rw [← Int.floor_add_intCast]
    exact Int.floor_le_floor (by linarith [Int.le_ceil d])
  have h3 : ⌈d⌉ ≤ ⌊d⌋ + 1 := Int.ceil_le_floor_add_one d
  omega

/-- C46, the boundary: the draw `u = 0`, which `random.uniform` can return, gives particle `0` an
extra copy; here its weight is zero and the count should be zero. -/
theorem systematic_counts_fail_at_zero (pf : Platform) :
    ∃ l : Fin 2 → Fl, IsLogits l ∧ nw l 0 = 0 ∧
      inverseCdf pf (systematicUniforms 0 1) l 0 = 0 := by
  have hl : IsLogits (![Fl.ninf, Fl.fin 0] : Fin 2 → Fl) :=
    ⟨fun i => by fin_cases i <;> trivial, 1, trivial⟩
  refine ⟨![Fl.ninf, Fl.fin 0], hl, (nw_eq_zero_iff hl 0).mpr rfl, ?_⟩
  rw [show systematicUniforms 0 1 = fun m : Fin 1 => Fl.fin ((0 + (m : ℕ)) / (1 : ℕ)) from
    funext fun m => systematicUniforms_eq 0 m,
    inverse_cdf_quantile pf hl (fun m : Fin 1 => (0 + (m : ℕ)) / ((1 : ℕ) : ℝ)) (systematic_monotone 0)]
  refine ⟨fun j hj => absurd hj (Fin.not_lt_zero j), .inl ?_⟩
  rw [cum_eq, cumBelow_zero _ _ rfl, zero_add]
  simpa using nw_nonneg _ _

/-! ## C48 -/

section sortedUniforms

variable (us : Fin (n + 1) → ℝ)

/-- The cumulative sums of `-log us`. -/
def expSums (i : Fin (n + 1)) : ℝ := ∑ j ∈ Finset.univ.filter (· ≤ i), -Real.log (us j)

variable {us}

omit [NeZero N] in
theorem cumsum_log (h : ∀ i, 0 < us i) (i : Fin (n + 1)) :
    cumsum (fun i => -Fl.log (Fl.fin (us i))) i = Fl.fin (expSums us i) := by
  rw [cumsum, expSums, ← Fl.sum_fin]
  exact Finset.sum_congr rfl fun j _ => by rw [Fl.log_fin _ (h j), Fl.neg_fin]

omit [NeZero N] in
theorem expSums_mono (h : ∀ i, 0 < us i) (h1 : ∀ i, us i < 1) {i j : Fin (n + 1)} (hij : i ≤ j) :
    expSums us i ≤ expSums us j := by
  refine Finset.sum_le_sum_of_subset_of_nonneg ?_ fun k _ _ => ?_
  · intro k hk
    simp only [Finset.mem_filter, Finset.mem_univ, true_and] at hk ⊢
    exact hk.trans hij
  · linarith [Real.log_neg (h k) (h1 k)]

omit [NeZero N] in
theorem expSums_pos (h : ∀ i, 0 < us i) (h1 : ∀ i, us i < 1) (i : Fin (n + 1)) :
    0 < expSums us i := by
  refine Finset.sum_pos (fun k _ => by linarith [Real.log_neg (h k) (h1 k)]) ⟨i, ?_⟩
  simp

omit [NeZero N] in
theorem sortedUniforms_eq (h : ∀ i, 0 < us i) (h1 : ∀ i, us i < 1) (m : Fin n) :
    sortedUniforms us m = Fl.fin (expSums us m.castSucc / expSums us (Fin.last n)) := by
  simp only [sortedUniforms]
  rw [cumsum_log h, cumsum_log h, Fl.fin_div _ _ (expSums_pos h h1 _).ne']

omit [NeZero N] in
theorem sortedUniforms_monotone (h : ∀ i, 0 < us i) (h1 : ∀ i, us i < 1) :
    Monotone fun m : Fin n => expSums us m.castSucc / expSums us (Fin.last n) := by
  intro a b hab
  have := expSums_pos h h1 (Fin.last n)
  have hle := expSums_mono h h1 (Fin.castSucc_le_castSucc_iff.mpr hab)
  simp only
  gcongr

omit [NeZero N] in
theorem sortedUniforms_mem (h : ∀ i, 0 < us i) (h1 : ∀ i, us i < 1) (m : Fin n) :
    0 < expSums us m.castSucc / expSums us (Fin.last n) ∧
      expSums us m.castSucc / expSums us (Fin.last n) ≤ 1 := by
  have hp := expSums_pos h h1 (Fin.last n)
  refine ⟨div_pos (expSums_pos h h1 _) hp, ?_⟩
  rw [div_le_one hp]
  exact expSums_mono h h1 (Fin.le_last _)

end sortedUniforms

/-- The indices of multinomial resampling before the permutation. -/
theorem sorted_idx (pf : Platform) {l : Fin N → Fl} (hl : IsLogits l) {us : Fin (n + 1) → ℝ}
    (h : ∀ i, 0 < us i) (h1 : ∀ i, us i < 1) (m : Fin n) (i : Fin N) :
    inverseCdf pf (sortedUniforms us) l m = i ↔
      cumBelow (nw l) i < expSums us m.castSucc / expSums us (Fin.last n) ∧
        expSums us m.castSucc / expSums us (Fin.last n) ≤ cum (nw l) i := by
  rw [show sortedUniforms us = fun m => Fl.fin (expSums us m.castSucc / expSums us (Fin.last n))
    from funext fun m => sortedUniforms_eq h h1 m]
  exact inverse_cdf_cell pf hl _ (sortedUniforms_monotone h h1) m (sortedUniforms_mem h h1 m).1
    (sortedUniforms_mem h h1 m).2 i

/-- C48: systematic resampling never returns a particle of weight zero (`-inf` log-weight), for a
positive draw. -/
theorem systematic_positive (rng : Rng K) (pf : Platform) (key : K) (hu : 0 < rng.uniform0 key)
    {l : Fin N → Fl} (hl : IsLogits l) (pos : Fin N → X) (n : ℕ) :
    ∃ r, systematic rng pf key l pos n = .ok r ∧ ∀ m, l (r.idx m) ≠ Fl.ninf := by
  refine ⟨_, rfl, fun m hm => ?_⟩
  rw [← nw_eq_zero_iff hl] at hm
  have := (systematic_idx pf hl hu (rng.uniform0_mem key).2 m _).mp rfl
  rw [cum_eq] at this
  simp only at hm
  linarith [this.1, this.2]

/-- C48: multinomial resampling never returns a particle of weight zero, for positive draws. -/
theorem multinomial_positive (rng : Rng K) (pf : Platform) (key : K) {l : Fin N → Fl}
    (hl : IsLogits l) (pos : Fin N → X) (n : ℕ)
    (hu : ∀ i, 0 < rng.uniform (rng.nth key 2 0) (n + 1) i) :
    ∃ r, multinomial rng pf key l pos n = .ok r ∧ ∀ m, l (r.idx m) ≠ Fl.ninf := by
  refine ⟨_, rfl, fun m hm => ?_⟩
  rw [← nw_eq_zero_iff hl] at hm
  have := (sorted_idx pf hl hu (fun i => (rng.uniform_mem _ _ i).2)
    (rng.permutation (rng.nth key 2 1) n m) _).mp rfl
  rw [cum_eq] at this
  simp only at hm
  linarith [this.1, this.2]

omit [NeZero N] in
/-- The largest log-weight of a proper particle system is finite. -/
theorem vmax_fin {l : Fin N → Fl} (hl : IsLogits l) :
    ∃ M : ℝ, Fl.vmax l = Fl.fin M ∧ (∃ i, l i = Fl.fin M) ∧ ∀ i r, l i = Fl.fin r → r ≤ M := by
  have key : ∀ s : Finset (Fin N), (s.fold Fl.max Fl.ninf l = Fl.ninf ∧ ∀ i ∈ s, l i = Fl.ninf) ∨
      ∃ M : ℝ, s.fold Fl.max Fl.ninf l = Fl.fin M ∧ (∃ i, l i = Fl.fin M) ∧
        ∀ i ∈ s, ∀ r, l i = Fl.fin r → r ≤ M := by
    intro s
    induction s using Finset.induction_on with
    | empty => exact .inl ⟨rfl, by simp⟩
    | insert a s ha ih =>
      rw [Finset.fold_insert ha]
      have hla := hl.1 a
      cases hval : l a with
      | nan => rw [hval] at hla; exact hla.elim
      | pinf => rw [hval] at hla; exact hla.elim
      | ninf =>
        rcases ih with ⟨h1, h2⟩ | ⟨M, h1, h2, h3⟩
        · left
          refine ⟨by rw [h1]; rfl, fun i hi => ?_⟩
          rcases Finset.mem_insert.mp hi with rfl | hi
          · exact hval
          · exact h2 i hi
        · right
          refine ⟨M, by rw [h1]; rfl, h2, fun i hi r hr => ?_⟩
          rcases Finset.mem_insert.mp hi with rfl | hi
          · rw [hval] at hr; cases hr
          · exact h3 i hi r hr
      | fin r₀ =>
        right
        rcases ih with ⟨h1, h2⟩ | ⟨M, h1, ⟨i₀, h2⟩, h3⟩
        · refine ⟨r₀, by rw [h1]; rfl, ⟨a, hval⟩, fun i hi r hr => ?_⟩
          rcases Finset.mem_insert.mp hi with rfl | hi
          · rw [hval] at hr; cases hr; exact le_rfl
          · rw [h2 i hi] at hr; cases hr
        · refine ⟨max r₀ M, by rw [h1]; rfl, ?_, fun i hi r hr => ?_⟩
          · rcases le_total r₀ M with h | h
            · exact ⟨i₀, by rw [max_eq_right h, h2]⟩
            · exact ⟨a, by rw [max_eq_left h, hval]⟩
          · rcases Finset.mem_insert.mp hi with rfl | hi
            · rw [hval] at hr; cases hr; exact le_max_left _ _
            · exact le_trans (h3 i hi r hr) (le_max_right _ _)
  rcases key Finset.univ with ⟨-, h⟩ | ⟨M, h1, h2, h3⟩
  · obtain ⟨i, hi⟩ := hl.2
    rw [h i (Finset.mem_univ i)] at hi
    exact hi.elim
  · exact ⟨M, h1, h2, fun i r => h3 i (Finset.mem_univ i) r⟩

/-- The largest normalised weight. -/
def nwMax (l : Fin N → Fl) : ℝ :=
  Finset.univ.sup' ⟨0, Finset.mem_univ _⟩ (nw l)

/-- A particle survives a positive draw `u` iff `u ≤ w_i / max_j w_j`. -/
theorem survived_iff {l : Fin N → Fl} (hl : IsLogits l) {us : Fin N → ℝ} (i : Fin N)
    (h0 : 0 < us i) : survived us l i = true ↔ us i ≤ nw l i / nwMax l := by
  obtain ⟨M, hM, ⟨i₀, hi₀⟩, hmax⟩ := vmax_fin hl
  have hS := sum_lik_pos hl
  have hlik : ∀ i, (l i).lik ≤ Real.exp M := by
    intro i
    have := hl.1 i
    cases hli : l i with
    | nan => rw [hli] at this; exact this.elim
    | pinf => rw [hli] at this; exact this.elim
    | ninf => simpa [Fl.lik] using Real.exp_nonneg M
    | fin r => simpa [Fl.lik] using hmax i r hli
  have hw : nwMax l = Real.exp M / ∑ j, (l j).lik := by
    apply le_antisymm
    · refine Finset.sup'_le _ _ fun j _ => ?_
      rw [nw]
      gcongr
      exact hlik j
    · refine le_trans (le_of_eq ?_) (Finset.le_sup' (nw l) (Finset.mem_univ i₀))
      rw [nw, hi₀, Fl.lik]
  have hratio : nw l i / nwMax l = (l i).lik / Real.exp M := by
    rw [hw, nw]
    field_simp
  rw [hratio, survived, hM, Fl.log_fin _ h0]
  have := hl.1 i
  cases hli : l i with
  | nan => rw [hli] at this; exact this.elim
  | pinf => rw [hli] at this; exact this.elim
  | ninf =>
    simp only [Fl.ninf_sub_fin, Fl.leb_iff, Fl.le_def, Fl.le, Fl.lik, zero_div]
    exact ⟨fun h => h.elim, fun h => by linarith⟩
  | fin r =>
    rw [Fl.fin_sub, Fl.leb_fin, Fl.lik, ← Real.exp_sub, Real.log_le_iff_le_exp h0]

/-- C48: killing resampling never returns a particle of weight zero, for positive draws. -/
theorem killing_positive (rng : Rng K) (pf : Platform) (key : K) {l : Fin N → Fl}
    (hl : IsLogits l) (pos : Fin N → X)
    (hu : ∀ i, 0 < rng.uniform (rng.nth key 2 0) N i)
    (hu' : ∀ i, 0 < rng.uniform (rng.nth (rng.nth key 2 1) 2 0) (N + 1) i) :
    ∃ r, killing rng pf key l pos N = .ok r ∧ ∀ m, l (r.idx m) ≠ Fl.ninf := by
  obtain ⟨r, hr, hpos⟩ := multinomial_positive rng pf (rng.nth key 2 1) hl pos N hu'
  refine ⟨_, by rw [killing]; simp only [dif_pos, hr]; rfl, fun m hm => ?_⟩
  simp only [Fin.cast_eq_self] at hm
  split_ifs at hm with hs
  · rw [survived_iff hl m (hu m), (nw_eq_zero_iff hl m).mpr hm, zero_div] at hs
    linarith [hu m]
  · exact hpos m hm

/-- C48, the boundary: a particle whose draw in killing resampling is exactly zero keeps its slot, even if its weight
is zero. -/
theorem killing_keeps_dead (rng : Rng K) (pf : Platform) (key : K) {l : Fin N → Fl} (hl : IsLogits l)
    (pos : Fin N → X) (i : Fin N) (hi : rng.uniform (rng.nth key 2 0) N i = 0) :
    ∃ r, killing rng pf key l pos N = .ok r ∧ r.idx i = i := by
  obtain ⟨r, hr⟩ : ∃ r, multinomial rng pf (rng.nth key 2 1) l pos N = .ok r := ⟨_, rfl⟩
  refine ⟨_, by rw [killing]; simp only [dif_pos, hr]; rfl, ?_⟩
  simp only [Fin.cast_eq_self]
  rw [if_pos]
  obtain ⟨M, hM, -, -⟩ := vmax_fin hl
  have := hl.1 i
  rw [survived, hM, hi, Fl.log_zero]
  cases hli : l i with
  | nan => rw [hli] at this; exact this.elim
  | pinf => rw [hli] at this; exact this.elim
  | ninf => simp [Fl.ninf_sub_fin, Fl.leb_iff, Fl.le_def, Fl.le]
  | fin r => simp [Fl.fin_sub, Fl.leb_iff, Fl.le_def, Fl.le]

/-- C48, the boundary: if one of the `n + 1` draws behind multinomial resampling is exactly zero
(which `random.uniform` can return) then, on a CPU, every slot receives particle `0`, whatever the
weights. -/
theorem multinomial_collapse (rng : Rng K) (key : K) (l : Fin N → Fl) (pos : Fin N → X) (n : ℕ)
    (i : Fin (n + 1)) (hi : rng.uniform (rng.nth key 2 0) (n + 1) i = 0) :
    ∃ r, multinomial rng .cpu key l pos n = .ok r ∧ ∀ m, r.idx m = 0 := by
  refine ⟨_, rfl, fun m => ?_⟩
  simp only
  obtain ⟨us, hus⟩ : ∃ us, us = rng.uniform (rng.nth key 2 0) (n + 1) := ⟨_, rfl⟩
  have hmem : ∀ j, 0 ≤ us j ∧ us j < 1 := fun j => hus ▸ rng.uniform_mem _ _ j
  rw [← hus] at hi ⊢
  generalize rng.permutation (rng.nth key 2 1) n m = m
  -- every summand is a non-negative number or `+∞`
  have hterm : ∀ j, -Fl.log (Fl.fin (us j)) = Fl.pinf ∨
      ∃ r : ℝ, 0 ≤ r ∧ -Fl.log (Fl.fin (us j)) = Fl.fin r := by
    intro j
    rcases (hmem j).1.eq_or_lt with h | h
    · left; rw [← h, Fl.log_zero]; rfl
    · right
      exact ⟨_, neg_nonneg.mpr (Real.log_nonpos (hmem j).1 (hmem j).2.le),
        by rw [Fl.log_fin _ h, Fl.neg_fin]⟩
  have hsum : ∀ s : Finset (Fin (n + 1)), (∑ j ∈ s, -Fl.log (Fl.fin (us j))) = Fl.pinf ∨
      ∃ r : ℝ, 0 ≤ r ∧ (∑ j ∈ s, -Fl.log (Fl.fin (us j))) = Fl.fin r := by
    intro s
    induction s using Finset.induction_on with
    | empty => exact .inr ⟨0, le_rfl, rfl⟩
    | insert a s ha ih =>
      rw [Finset.sum_insert ha]
      rcases hterm a with h | ⟨r, hr, h⟩ <;> rcases ih with h' | ⟨r', hr', h'⟩ <;> rw [h, h']
      · left; rfl
      · left; rfl
      · left; rfl
      · right; exact ⟨r + r', by positivity, rfl⟩
  have hlast : cumsum (fun j => -Fl.log (Fl.fin (us j))) (Fin.last n) = Fl.pinf := by
    rw [cumsum, ← Finset.add_sum_erase _ _ (a := i) (by simp [Fin.le_last]), hi, Fl.log_zero]
    rcases hsum ((Finset.univ.filter (· ≤ Fin.last n)).erase i) with h | ⟨r, -, h⟩ <;> rw [h] <;> rfl
  have hu : ∀ m : Fin n, sortedUniforms us m = Fl.nan ∨ sortedUniforms us m = Fl.fin 0 := by
    intro m
    simp only [sortedUniforms]
    rw [hlast, cumsum]
    rcases hsum (Finset.univ.filter (· ≤ m.castSucc)) with h | ⟨r, -, h⟩ <;> rw [h]
    · left; rfl
    · right; rfl
  -- the loop never advances
  have hstop : ∀ m : Fin n, Fl.ltb (weights l 0) (sortedUniforms us m) = false := by
    intro m
    rcases hu m with h | h <;> rw [h]
    · simp
    · rcases weights_cases l 0 with h' | ⟨r, hr, h'⟩ <;> rw [h']
      · simp
      · rw [Bool.eq_false_iff, Ne, Fl.ltb_fin]; linarith
  have hstate : ∀ k (hk : k ≤ n), numbaState (sortedUniforms us) (weights l) k hk =
      (0, weights l 0) := by
    intro k
    induction k with
    | zero => intro hk; rfl
    | succ k ih =>
      intro hk
      rw [numbaState, ih (by omega), advance, dif_neg]
      rw [hstop]
      simp
  rw [inverseCdf, inverseCdfCpu, inverseCdfNumba, hstate]
  rfl

/-! ## C49 -/

omit [NeZero N] in
theorem roll_apply_self {α : Type*} (x : Fin n → α) (i : Fin n) :
    roll x ((i : ℕ) : ℤ) i = x ⟨0, i.pos⟩ := by
  simp [roll]

/-- The conditional draw never pushes the first stratum beyond the first particle. -/
theorem conditionalUniform_spec (hn : 0 < n) {r U : ℝ} (V : ℝ) (hr : 0 ≤ r) (hU0 : 0 ≤ U)
    (hU1 : U < 1) : ∃ c : ℝ, conditionalUniform n (Fl.fin r) U V = Fl.fin c ∧ 0 ≤ c ∧
      c ≤ n * r ∧ c ≤ 1 := by
  have hn' : (0 : ℝ) < n := by exact_mod_cast hn
  rw [conditionalUniform]
  simp only [Fl.fin_mul, Fl.floor, Fl.fin_sub, Fl.fin_add]
  have h0 : (0 : ℝ) ≤ n * r := by positivity
  by_cases h : n * r ≤ 1
  · rw [if_pos ((Fl.leb_fin _ _).mpr h)]
    exact ⟨_, rfl, by positivity, by nlinarith, by nlinarith⟩
  · rw [if_neg (fun hc => h ((Fl.leb_fin _ _).mp hc))]
    have hf0 := Int.fract_nonneg (n * r)
    have hf1 := Int.fract_lt_one (n * r)
    rw [show (n * r - (⌊n * r⌋ : ℤ) : ℝ) = Int.fract (n * r) from rfl]
    push Not at h
    split_ifs
    · exact ⟨_, rfl, by positivity, by nlinarith, by nlinarith⟩
    · exact ⟨_, rfl, by nlinarith, by nlinarith, by nlinarith⟩

omit [NeZero N] in
theorem readClamped_flatnonzero (mask : Fin n → Bool) (hn : 0 < n) (j : ℕ)
    (hj : j < (Finset.univ.filter fun m => mask m = true).card) :
    ∃ i : Fin n, mask i = true ∧ readClamped (flatnonzero mask) hn j = ((i : ℕ) : ℤ) := by
  have hlen : ((List.finRange n).filter mask).length =
      (Finset.univ.filter fun m => mask m = true).card := by
    rw [← List.toFinset_card_of_nodup ((List.nodup_finRange n).filter _)]
    congr 1
    ext i
    simp
  have hlt : j < ((List.finRange n).filter mask).length := by rw [hlen]; exact hj
  have hjn : j < n := by
    have := Finset.card_filter_le Finset.univ fun m : Fin n => mask m = true
    rw [Finset.card_univ, Fintype.card_fin] at this
    omega
  refine ⟨((List.finRange n).filter mask)[j], ?_, ?_⟩
  · exact (List.mem_filter.mp (List.getElem_mem hlt)).2
  · rw [readClamped, flatnonzero]
    simp only [show min j (n - 1) = j by omega]
    rw [List.getElem?_eq_getElem hlt]

omit [NeZero N] in
theorem roll_neg_apply_zero {α : Type*} (x : Fin n → α) (i : Fin n) :
    roll x (-((i : ℕ) : ℤ)) ⟨0, i.pos⟩ = x i := by
  have h : ((i : ℕ) : ℤ) % n = (i : ℕ) := Int.emod_eq_of_lt (by positivity) (by exact_mod_cast i.isLt)
  simp [roll, h]

/-- Slot `0` of the conditional scheme holds particle `0`. -/
theorem systematicConditional00_zero (pf : Platform) {U V W : ℝ} (hU : 0 ≤ U ∧ U < 1)
    (hW : 0 ≤ W ∧ W < 1) (l : Fin N → Fl) (hn : 0 < n) :
    systematicConditional00 pf U V W l hn ⟨0, hn⟩ = 0 := by
  have hn' : (0 : ℝ) < n := by exact_mod_cast hn
  rw [systematicConditional00]
  obtain ⟨ls, hls⟩ : ∃ ls : Fin n → Fl, ls = fun m : Fin n =>
    (Fl.fin m + conditionalUniform n (weights l 0) U V) / Fl.fin n := ⟨_, rfl⟩
  simp only [← hls]
  -- the first stratum falls into the first cell
  have hidx : inverseCdf pf ls l ⟨0, hn⟩ = 0 := by
    rcases weights_cases l 0 with hw | ⟨r, hr, hw⟩
    · -- everything is `nan`
      have hnan : ∀ m, ls m = Fl.nan := by
        intro m
        have : conditionalUniform n Fl.nan U V = Fl.nan := by
          simp [conditionalUniform, Fl.floor]
        rw [hls, hw, this]
        simp
      cases pf
      · rw [inverseCdf, inverseCdfCpu, inverseCdfNumba, numbaState]
        simp only [numbaState]
        rw [advance, dif_neg (by rw [hnan]; simp)]
        rfl
      · have hcs : ∀ i, cumsum (weights l) i = Fl.nan := fun i =>
          Fl.sum_nan _ _ 0 (by simp) hw
        rw [inverseCdf, inverseCdfDefault, hnan, searchsorted]
        have : (Finset.univ.filter fun i => sortLt (cumsum (weights l) i) Fl.nan = true) = ∅ := by
          ext i
          simp [hcs i, sortLt]
        rw [this]
        rfl
    · obtain ⟨c, hc, hc0, hc1, -⟩ := conditionalUniform_spec hn V hr hU.1 hU.2
      have hls' : ls = fun m : Fin n => Fl.fin (((m : ℕ) + c) / n) := by
        rw [hls, hw, hc]
        exact funext fun m => by rw [Fl.fin_add, Fl.fin_div _ _ hn'.ne']
      have hmono : Monotone fun m : Fin n => (((m : ℕ) : ℝ) + c) / n := by
        intro a b hab
        have : ((a : ℕ) : ℝ) ≤ (b : ℕ) := by exact_mod_cast hab
        simp only
        gcongr
      have hrank := inverseCdf_isRank pf l _ hmono ⟨0, hn⟩
      rw [← hls'] at hrank
      by_contra hne
      have := hrank.1 0 (pos_of_ne_zero hne)
      simp only [] at this
      rw [cumsum_zero, hw, Fl.ltb_fin, lt_div_iff₀ hn'] at this
      simp only [Nat.cast_zero, zero_add] at this
      linarith
  obtain ⟨idx, hidx'⟩ : ∃ idx, idx = inverseCdf pf ls l := ⟨_, rfl⟩
  rw [← hidx'] at hidx ⊢
  split_ifs with h1
  · exact hidx
  · have hpos : 0 < (Finset.univ.filter fun m => idx m = 0).card :=
      Finset.card_pos.mpr ⟨⟨0, hn⟩, by simp [hidx]⟩
    obtain ⟨c, hc⟩ : ∃ c, c = (Finset.univ.filter fun m => idx m = 0).card := ⟨_, rfl⟩
    rw [← hc] at hpos h1 ⊢
    have hfl : ⌊(c : ℝ) * W⌋.toNat < c := by
      have hc' : (0 : ℝ) < c := by exact_mod_cast hpos
      have : ⌊(c : ℝ) * W⌋ < c := by
        rw [Int.floor_lt]
        push_cast
        nlinarith [hW.2]
      omega
    obtain ⟨i, hi, hread⟩ := readClamped_flatnonzero (fun m => decide (idx m = 0)) hn
      ⌊(c : ℝ) * W⌋.toNat (by simpa [← hc] using hfl)
    rw [hread, roll_neg_apply_zero]
    simpa using hi

/-- C49: conditional systematic resampling puts particle `pivot_out` into slot `pivot_in`, for all
log-weights, platforms and draws. -/
theorem systematic_conditional_keeps_pivot (rng : Rng K) (pf : Platform) (key : K)
    (l : Fin N → Fl) (pos : Fin N → X) (pivotIn : Fin n) (pivotOut : Fin N) :
    ∃ r, systematicConditional rng pf key l pos n pivotIn pivotOut = .ok r ∧
      r.idx pivotIn = pivotOut ∧ r.positions pivotIn = pos pivotOut := by
  refine ⟨_, rfl, ?_⟩
  have h : ∀ l' : Fin N → Fl, systematicConditional00 pf (rng.uniform key 3 0)
      (rng.uniform key 3 1) (rng.uniform key 3 2) l' pivotIn.pos ⟨0, pivotIn.pos⟩ = 0 :=
    fun l' => systematicConditional00_zero pf (rng.uniform_mem _ _ _) (rng.uniform_mem _ _ _) l' _
  have h0 : roll (id : Fin N → Fin N) (-((pivotOut : ℕ) : ℤ)) 0 = pivotOut :=
    roll_neg_apply_zero id pivotOut
  simp only [applyIndices, roll_apply_self, h, h0, and_self]

/-- C49: conditional multinomial resampling puts particle `pivot_out` into slot `pivot_in`. -/
theorem multinomial_conditional_keeps_pivot (rng : Rng K) (pf : Platform) (key : K)
    (l : Fin N → Fl) (pos : Fin N → X) (pivotIn : Fin n) (pivotOut : Fin N) :
    ∃ r, multinomialConditional rng pf key l pos n pivotIn pivotOut = .ok r ∧
      r.idx pivotIn = pivotOut ∧ r.positions pivotIn = pos pivotOut :=
  ⟨_, rfl, by simp [applyIndices]⟩

theorem killing_ok (rng : Rng K) (pf : Platform) (key : K) (l : Fin N → Fl) (pos : Fin N → X) :
    ∃ r, killing rng pf key l pos N = .ok r := by
  rw [killing]
  simp only [dif_pos]
  exact ⟨_, rfl⟩

/-- C49: conditional killing resampling puts particle `pivot_out` into slot `pivot_in`. -/
theorem killing_conditional_keeps_pivot (rng : Rng K) (pf : Platform) (key : K)
    (l : Fin N → Fl) (pos : Fin N → X) (pivotIn : Fin N) (pivotOut : Fin N) :
    ∃ r, killingConditional rng pf key l pos N pivotIn pivotOut = .ok r ∧
      r.idx pivotIn = pivotOut ∧ r.positions pivotIn = pos pivotOut := by
  obtain ⟨r, hr⟩ := killing_ok rng pf (rng.nth key 2 0) l pos
  refine ⟨_, by rw [killingConditional, hr]; rfl, ?_⟩
  simp [applyIndices]

/-! ## C51 -/

/-- Indices, positions and log-weights fit together: the positions are those of the indices and
all particles are equally weighted. -/
def Consistent (pos : Fin N → X) (r : Resampled N n X) : Prop :=
  (∀ m, r.positions m = pos (r.idx m)) ∧ ∀ m, r.logits m = 0

/-- C51: systematic and multinomial resampling return, for any number of indices, consistent
arrays. -/
theorem systematic_multinomial_consistent (rng : Rng K) (pf : Platform) (key : K)
    (l : Fin N → Fl) (pos : Fin N → X) (n : ℕ) :
    (∃ r, systematic rng pf key l pos n = .ok r ∧ Consistent pos r) ∧
      ∃ r, multinomial rng pf key l pos n = .ok r ∧ Consistent pos r :=
  ⟨⟨_, rfl, fun _ => rfl, fun _ => rfl⟩, ⟨_, rfl, fun _ => rfl, fun _ => rfl⟩⟩

/-- C51: killing resampling returns consistent arrays if as many indices as particles are
requested, and raises an `AssertionError` otherwise. -/
theorem killing_consistent (rng : Rng K) (pf : Platform) (key : K) (l : Fin N → Fl)
    (pos : Fin N → X) (n : ℕ) :
    (n = N → ∃ r, killing rng pf key l pos n = .ok r ∧ Consistent pos r) ∧
      (n ≠ N → killing rng pf key l pos n = .error .assertionError) := by
  constructor
  · rintro rfl
    rw [killing]
    simp only [dif_pos]
    exact ⟨_, rfl, fun _ => rfl, fun _ => rfl⟩
  · intro h
    rw [killing]
    simp only [dif_neg h]

/-- C51: conditional resampling returns consistent arrays; the killing scheme raises if the number
of indices is not the number of particles. -/
theorem conditional_consistent (rng : Rng K) (pf : Platform) (key : K) (l : Fin N → Fl)
    (pos : Fin N → X) (n : ℕ) (pivotIn : Fin n) (pivotOut : Fin N) :
    (∃ r, systematicConditional rng pf key l pos n pivotIn pivotOut = .ok r ∧ Consistent pos r) ∧
    (∃ r, multinomialConditional rng pf key l pos n pivotIn pivotOut = .ok r ∧ Consistent pos r) ∧
    (n = N → ∃ r, killingConditional rng pf key l pos n pivotIn pivotOut = .ok r ∧
      Consistent pos r) ∧
    (n ≠ N → killingConditional rng pf key l pos n pivotIn pivotOut = .error .assertionError) := by
  refine ⟨⟨_, rfl, fun _ => rfl, fun _ => rfl⟩, ⟨_, rfl, fun _ => rfl, fun _ => rfl⟩, ?_, ?_⟩
  · rintro rfl
    obtain ⟨r, hr⟩ := killing_ok rng pf (rng.nth key 2 0) l pos
    rw [killingConditional, hr]
    exact ⟨_, rfl, fun _ => rfl, fun _ => rfl⟩
  · intro h
    rw [killingConditional, (killing_consistent rng pf _ l pos n).2 h]
    rfl

omit [NeZero N] in
/-- C51: adaptive resampling raises if the number of indices is not the number of particles;
otherwise it returns what the wrapped function returns, or every particle once with its own
weight. -/
theorem adaptive_consistent (func : Resampler K N X) (threshold : ℝ) (key : K) (l : Fin N → Fl)
    (pos : Fin N → X) (n : ℕ) :
    (n ≠ N → adaptive func threshold key l pos n = .error .assertionError) ∧
    (n = N → adaptive func threshold key l pos N = func key l pos N ∨
      adaptive func threshold key l pos N = .ok ⟨id, l, pos⟩) := by
  constructor
  · intro h
    rw [adaptive, dif_neg h]
  · intro _
    rw [adaptive, dif_pos rfl]
    split_ifs
    · exact .inl rfl
    · exact .inr rfl

/-! ## C52 -/

section ess

variable {l : Fin N → Fl}

omit [NeZero N] in
theorem logsumexp_two (hl : IsLogits l) :
    Fl.logsumexp (fun i => Fl.fin 2 * l i) = Fl.fin (Real.log (∑ j, (l j).lik ^ 2)) := by
  have hlik : ∀ i, Fl.exp (Fl.fin 2 * l i) = Fl.fin ((l i).lik ^ 2) := by
    intro i
    have := hl.1 i
    cases hli : l i with
    | nan => rw [hli] at this; exact this.elim
    | pinf => rw [hli] at this; exact this.elim
    | ninf =>
      have : Fl.fin 2 * Fl.ninf = Fl.ninf := by
        simp [Fl.mul_def, Fl.mul, Fl.infOfSign]
      rw [this]; simp [Fl.lik]
    | fin r => rw [Fl.fin_mul, Fl.exp_fin, Fl.lik, ← Real.exp_nat_mul]; simp
  rw [Fl.logsumexp, Finset.sum_congr rfl fun i _ => hlik i, Fl.sum_fin, Fl.log_fin]
  obtain ⟨i, hi⟩ := hl.2
  exact lt_of_lt_of_le (pow_pos (Fl.lik_pos hi) 2)
    (Finset.single_le_sum (f := fun j => (l j).lik ^ 2) (fun j _ => sq_nonneg _)
      (Finset.mem_univ i))

omit [NeZero N] in
theorem sum_lik_sq_pos (hl : IsLogits l) : 0 < ∑ j, (l j).lik ^ 2 := by
  obtain ⟨i, hi⟩ := hl.2
  exact lt_of_lt_of_le (pow_pos (Fl.lik_pos hi) 2)
    (Finset.single_le_sum (f := fun j => (l j).lik ^ 2) (fun j _ => sq_nonneg _)
      (Finset.mem_univ i))

omit [NeZero N] in
theorem logEss_eq (hl : IsLogits l) :
    logEss l = Fl.fin (Real.log ((∑ j, (l j).lik) ^ 2 / ∑ j, (l j).lik ^ 2)) := by
  rw [logEss, logsumexp_eq hl, logsumexp_two hl, Fl.fin_mul, Fl.fin_sub,
    Real.log_div (pow_pos (sum_lik_pos hl) 2).ne' (sum_lik_sq_pos hl).ne', Real.log_pow]
  push_cast
  rfl

omit [NeZero N] in
/-- C52: `ess` is `(∑ w_i)² / ∑ w_i²`. -/
theorem ess_eq (hl : IsLogits l) :
    ess l = Fl.fin ((∑ j, (l j).lik) ^ 2 / ∑ j, (l j).lik ^ 2) := by
  rw [ess, logEss_eq hl, Fl.exp_fin,
    Real.exp_log (div_pos (pow_pos (sum_lik_pos hl) 2) (sum_lik_sq_pos hl))]

omit [NeZero N] in
/-- C52: the effective sample size lies between `1` and the number of particles. -/
theorem ess_mem (hl : IsLogits l) : ∃ r, ess l = Fl.fin r ∧ 1 ≤ r ∧ r ≤ N := by
  refine ⟨_, ess_eq hl, ?_, ?_⟩
  · rw [one_le_div (sum_lik_sq_pos hl), sq, Finset.sum_mul]
    refine Finset.sum_le_sum fun i _ => ?_
    rw [sq]
    exact mul_le_mul_of_nonneg_left (Finset.single_le_sum (f := fun j => (l j).lik)
      (fun j _ => Fl.lik_nonneg _) (Finset.mem_univ i)) (Fl.lik_nonneg _)
  · rw [div_le_iff₀ (sum_lik_sq_pos hl)]
    simpa using sq_sum_le_card_mul_sum_sq (s := Finset.univ) (f := fun j => (l j).lik)

omit [NeZero N] in
/-- C52: adding a constant to all log-weights does not change the effective sample size. -/
theorem ess_shift (hl : IsLogits l) (a : ℝ) : ess (fun i => l i + Fl.fin a) = ess l := by
  have hlik : ∀ i, (l i + Fl.fin a).lik = (l i).lik * Real.exp a := by
    intro i
    have := hl.1 i
    cases hli : l i with
    | nan => rw [hli] at this; exact this.elim
    | pinf => rw [hli] at this; exact this.elim
    | ninf => simp [Fl.add_def, Fl.add, Fl.lik]
    | fin r => simp [Fl.lik, Real.exp_add]
  have hl' : IsLogits fun i => l i + Fl.fin a := by
    refine ⟨fun i => ?_, ?_⟩
    · have := hl.1 i
      cases hli : l i <;> rw [hli] at this <;> first | exact this.elim | (simp only [hli]; trivial)
    · obtain ⟨i, hi⟩ := hl.2
      refine ⟨i, ?_⟩
      cases hli : l i <;> rw [hli] at hi <;> first | exact hi.elim | (simp only [hli]; trivial)
  rw [ess_eq hl', ess_eq hl]
  simp only [hlik, mul_pow, ← Finset.sum_mul]
  congr 1
  have := Real.exp_pos a
  have := sum_lik_sq_pos hl
  field_simp

omit [NeZero N] in
/-- C52: adaptive resampling calls the wrapped function exactly if `ESS < threshold * N`, and
otherwise returns the indices `0, ..., N - 1` and its inputs unchanged. -/
theorem adaptive_iff (func : Resampler K N X) (threshold : ℝ) (key : K) (hl : IsLogits l)
    (pos : Fin N → X) :
    ∃ r : ℝ, ess l = Fl.fin r ∧
      (r < threshold * N → adaptive func threshold key l pos N = func key l pos N) ∧
      (¬ r < threshold * N → adaptive func threshold key l pos N = .ok ⟨id, l, pos⟩) := by
  obtain ⟨r, hr, h1, -⟩ := ess_mem hl
  refine ⟨r, hr, ?_⟩
  have hlog : logEss l = Fl.fin (Real.log r) := by
    rw [ess_eq hl] at hr
    rw [logEss_eq hl, Fl.fin.inj hr]
  have hcond : Fl.ltb (logEss l) (Fl.log (Fl.fin (threshold * N))) = true ↔
      r < threshold * N := by
    rw [hlog]
    rcases lt_trichotomy 0 (threshold * (N : ℝ)) with h | h | h
    · rw [Fl.log_fin _ h, Fl.ltb_fin, Real.log_lt_log_iff (by linarith) h]
    · rw [← h, Fl.log_zero, Fl.ltb_iff]
      exact ⟨fun h => h.elim, fun h => by linarith⟩
    · have : Fl.log (Fl.fin (threshold * N)) = Fl.nan := by
        rw [Fl.log, if_neg (by linarith), if_neg h.ne]
      rw [this, Fl.ltb_nan]
      exact ⟨fun h => absurd h Bool.false_ne_true, fun h => by linarith⟩
  rw [adaptive, dif_pos rfl]
  constructor
  · intro h
    rw [if_pos (hcond.mpr h)]
  · intro h
    rw [if_neg fun hc => h (hcond.mp hc)]
    rfl

omit [NeZero N] in
/-- C52, degenerate weights: if every particle has weight zero the effective sample size is `nan`
and adaptive resampling keeps the particles. -/
theorem adaptive_all_dead (func : Resampler K N X) (threshold : ℝ) (key : K) (pos : Fin N → X) :
    adaptive func threshold key (fun _ => Fl.ninf) pos N = .ok ⟨id, fun _ => Fl.ninf, pos⟩ := by
  have h1 : Fl.logsumexp (fun _ : Fin N => Fl.ninf) = Fl.ninf := by
    rw [Fl.logsumexp]
    simp only [Fl.exp_ninf, Fl.sum_fin, Finset.sum_const_zero, Fl.log_zero]
  have h2 : Fl.fin 2 * Fl.ninf = Fl.ninf := by simp [Fl.mul_def, Fl.mul, Fl.infOfSign]
  have h3 : logEss (fun _ : Fin N => Fl.ninf) = Fl.nan := by
    rw [logEss]
    simp only [h2, h1]
    rfl
  rw [adaptive, dif_pos rfl, h3, Fl.nan_ltb]
  rfl

/-- Hypotheses of C52 are met with a non-trivial decision: two equal weights have effective sample
size `2`, so the threshold `1/2` keeps the particles. -/
example (func : Resampler K 2 X) (key : K) (pos : Fin 2 → X) :
    adaptive func (1 / 2) key ![Fl.fin 0, Fl.fin 0] pos 2 =
      .ok ⟨id, ![Fl.fin 0, Fl.fin 0], pos⟩ := by
  obtain ⟨r, hr, -, h⟩ := adaptive_iff func (1 / 2) key isLogits_pair pos
  obtain ⟨r', hr', h1, -⟩ := ess_mem isLogits_pair
  refine h ?_
  have : r = r' := Fl.fin.inj (hr.symm.trans hr')
  rw [this]
  norm_num
  linarith

end ess

end

end Cuthbert.Resampling
