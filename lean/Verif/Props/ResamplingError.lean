import Verif.Lemmas.SMCConsistency

/-!
# Properties: the error that resampling adds to averages (C76)
-/

namespace Cuthbert.Resampling
open MeasureTheory Set SMC
open scoped ENNReal

noncomputable section

attribute [local irreducible] multinomialIdx killingIdx

variable {K X : Type} [MeasurableSpace K] {P : Measure K} {rng : Rng K} {N n : ℕ}

/-! ## C76 -/

/-- Resampling never raises, and the mean squared difference between the weighted average of `f` after resampling and
before is at most `r`. -/
def ErrorAtMost (P : Measure K) (l : Fin N → Fl) (pos : Fin N → X) (res : K → Except Err (Resampled N n X))
    (f : X → ℝ) (r : ℝ) : Prop :=
  ∃ R : K → Resampled N n X, (∀ k, res k = .ok (R k)) ∧
    Measurable (fun k => ∑ m, nw (R k).logits m * f ((R k).positions m)) ∧
    ∫⁻ k, ENNReal.ofReal ((∑ m, nw (R k).logits m * f ((R k).positions m) - ∑ i, nw l i * f (pos i)) ^ 2) ∂P ≤
      ENNReal.ofReal r

/-- Independent slots. -/
theorem mse_slots [IsProbabilityMeasure P] [NeZero n] {l : Fin N → Fl} (hl : IsLogits l) {I : K → Fin n → Fin N}
    (hm : Measurable I) (q : Fin n → Fin N → ℝ≥0∞) (hq : ∀ m, ∑ b, q m b = 1)
    (hmean : ∀ i, ∑ m, q m i = n * ENNReal.ofReal (nw l i))
    (hlaw : ∀ G : (Fin n → Fin N) → ℝ≥0∞, ∫⁻ k, G (I k) ∂P = ∑ a, (∏ m, q m (a m)) * G a)
    {g : Fin N → ℝ} {c : ℝ} (hg : ∀ i, |g i| ≤ c) :
    ∫⁻ k, ENNReal.ofReal ((∑ m, (n : ℝ)⁻¹ * g (I k m) - ∑ i, nw l i * g i) ^ 2) ∂P ≤
      ENNReal.ofReal (4 * c ^ 2 / n) := by
  have hn : (0 : ℝ) < n := by exact_mod_cast NeZero.pos n
  obtain ⟨i0, -⟩ := hl.2
  have hc : 0 ≤ c := (abs_nonneg _).trans (hg i0)
  have hg0 : ∀ i, 0 ≤ g i + c := fun i => by linarith [neg_le_of_abs_le (hg i)]
  have hidx : ∀ m, Measurable fun k => I k m := fun m => (measurable_pi_apply m).comp hm
  obtain ⟨H, hH⟩ : ∃ H : Fin N → ℝ≥0∞, H = fun i => ENNReal.ofReal (g i + c) := ⟨_, rfl⟩
  have hHt : ∀ i, H i ≠ ⊤ := fun i => by rw [hH]; exact ENNReal.ofReal_ne_top
  have hHC : ∀ i, H i ≤ ENNReal.ofReal (2 * c) := fun i => by
    rw [hH]; exact ENNReal.ofReal_le_ofReal (by linarith [le_of_abs_le (hg i)])
  have hHr : ∀ i, (H i).toReal = g i + c := fun i => by rw [hH]; exact ENNReal.toReal_ofReal (hg0 i)
  obtain ⟨Y, hY⟩ : ∃ Y : K → ℝ≥0∞, Y = fun k => ∑ m, (n : ℝ≥0∞)⁻¹ * H (I k m) := ⟨_, rfl⟩
  obtain ⟨μ, hμ⟩ : ∃ μ, μ = ∑ i, ENNReal.ofReal (nw l i) * H i := ⟨_, rfl⟩
  have hT : ∀ m, Measurable fun k => H (I k m) := fun m => (measurable_of_finite H).comp (hidx m)
  have hYm : Measurable Y := by
    rw [hY]
    exact Finset.measurable_sum _ fun m _ => (hT m).const_mul _
  have hYt : ∀ k, Y k ≠ ⊤ := fun k => by
    rw [hY]
    exact ENNReal.sum_ne_top.mpr fun m _ => ENNReal.mul_ne_top (by simp [NeZero.ne n]) (hHt _)
  have hμt : μ ≠ ⊤ := by
    rw [hμ]
    exact ENNReal.sum_ne_top.mpr fun m _ => ENNReal.mul_ne_top ENNReal.ofReal_ne_top (hHt _)
  have hμe : ∑ m, (n : ℝ≥0∞)⁻¹ * ∑ b, q m b * H b = μ := by
    rw [hμ, ← Finset.mul_sum, Finset.sum_comm, Finset.mul_sum]
    refine Finset.sum_congr rfl fun i _ => ?_
    rw [← Finset.sum_mul, hmean i, ← mul_assoc, ← mul_assoc, inv_mul_self, one_mul]
  have hEY : ∫⁻ k, Y k ∂P = μ := by
    rw [hY, lintegral_finsetSum' _ fun m _ => ((hT m).const_mul _).aemeasurable, ← hμe]
    refine Finset.sum_congr rfl fun m _ => ?_
    rw [lintegral_const_mul _ (hT m), hlaw fun a => H (a m), sum_prod_slot hq m H]
  have hEY2 : ∫⁻ k, Y k ^ 2 ∂P ≤ μ ^ 2 + ENNReal.ofReal (4 * c ^ 2 / n) := by
    rw [hY]
    refine (lintegral_sq_le (μ := P) (fun _ : Fin n => (n : ℝ≥0∞)⁻¹) (fun m => ∑ b, q m b * H b) hT
      (C := ENNReal.ofReal (2 * c)) (fun m k => hHC _) (fun m m' => m ≠ m') fun m m' hne => ?_).trans_eq ?_
    · have h2 := hlaw fun a => H (a m) * H (a m')
      rw [h2, sum_prod_two hq hne fun b b' => H b * H b', Finset.sum_mul_sum]
      exact (Finset.sum_congr rfl fun b _ => Finset.sum_congr rfl fun b' _ => by ring).le
    · rw [sum_ne_diag, sum_inv_sq, hμe]
      congr 1
      rw [← ENNReal.ofReal_pow (by positivity), ← ENNReal.ofReal_natCast, ← ENNReal.ofReal_inv_of_pos hn,
        ← ENNReal.ofReal_mul (by positivity)]
      congr 1
      ring
  have hpt : ∀ k, ENNReal.ofReal ((∑ m, (n : ℝ)⁻¹ * g (I k m) - ∑ i, nw l i * g i) ^ 2) + 2 * μ * Y k =
      Y k ^ 2 + μ ^ 2 := by
    intro k
    have h1 : (Y k).toReal = (∑ m, (n : ℝ)⁻¹ * g (I k m)) + c := by
      rw [hY]
      simp only
      rw [ENNReal.toReal_sum fun m _ => ENNReal.mul_ne_top (by simp [NeZero.ne n]) (hHt _)]
      simp only [ENNReal.toReal_mul, hHr, ENNReal.toReal_inv, ENNReal.toReal_natCast, mul_add]
      rw [Finset.sum_add_distrib]
      congr 1
      rw [Finset.sum_const, Finset.card_univ, Fintype.card_fin, nsmul_eq_mul]
      field_simp
    have h2 : μ.toReal = (∑ i, nw l i * g i) + c := by
      rw [hμ, ENNReal.toReal_sum fun m _ => ENNReal.mul_ne_top ENNReal.ofReal_ne_top (hHt _)]
      simp only [ENNReal.toReal_mul, hHr, ENNReal.toReal_ofReal (nw_nonneg l _), mul_add]
      rw [Finset.sum_add_distrib, ← Finset.sum_mul, nw_sum hl, one_mul]
    rw [← ofReal_sub_sq (hYt k) hμt, h1, h2]
    congr 3
    ring
  have h6 : (∫⁻ k, ENNReal.ofReal ((∑ m, (n : ℝ)⁻¹ * g (I k m) - ∑ i, nw l i * g i) ^ 2) ∂P) + 2 * μ * μ =
      (∫⁻ k, Y k ^ 2 ∂P) + μ ^ 2 := by
    conv_lhs => rw [← hEY]
    rw [hEY]
    calc _ = (∫⁻ k, ENNReal.ofReal ((∑ m, (n : ℝ)⁻¹ * g (I k m) - ∑ i, nw l i * g i) ^ 2) ∂P) +
          ∫⁻ k, 2 * μ * Y k ∂P := by rw [lintegral_const_mul _ hYm, hEY]
      _ = _ := by
          rw [← lintegral_add_right _ (hYm.const_mul _)]
          simp only [hpt]
          rw [lintegral_add_right _ measurable_const, lintegral_const, measure_univ, mul_one]
  refine ENNReal.le_of_add_le_add_right (a := 2 * μ * μ)
    (ENNReal.mul_ne_top (ENNReal.mul_ne_top (by norm_num) hμt) hμt) ?_
  rw [h6]
  calc _ ≤ μ ^ 2 + ENNReal.ofReal (4 * c ^ 2 / n) + μ ^ 2 := by gcongr
    _ = _ := by ring

theorem errorAtMost_slots [IsProbabilityMeasure P] [NeZero n] {l : Fin N → Fl} (hl : IsLogits l)
    {I : K → Fin n → Fin N} (hm : Measurable I) (q : Fin n → Fin N → ℝ≥0∞) (hq : ∀ m, ∑ b, q m b = 1)
    (hmean : ∀ i, ∑ m, q m i = n * ENNReal.ofReal (nw l i))
    (hlaw : ∀ G : (Fin n → Fin N) → ℝ≥0∞, ∫⁻ k, G (I k) ∂P = ∑ a, (∏ m, q m (a m)) * G a)
    {pos : Fin N → X} {f : X → ℝ} {c : ℝ} (hf : ∀ x, |f x| ≤ c) {res : K → Except Err (Resampled N n X)}
    (hres : ∀ k, res k = .ok ⟨I k, fun _ => 0, fun m => pos (I k m)⟩) :
    ErrorAtMost P l pos res f (4 * c ^ 2 / n) := by
  have h1 : ∀ m : Fin n, nw (fun _ : Fin n => (0 : Fl)) m = (n : ℝ)⁻¹ := nw_zero
  refine ⟨_, hres, ?_, ?_⟩
  · simp only [h1]
    refine Finset.measurable_sum _ fun m _ => Measurable.const_mul ?_ _
    exact (measurable_of_finite fun i => f (pos i)).comp ((measurable_pi_apply m).comp hm)
  · simp only [h1]
    exact mse_slots hl hm q hq hmean hlaw (g := fun i => f (pos i)) fun i => hf _

variable [NeZero N]

/-- C76: multinomial resampling adds an error of order one over the number of new particles. -/
theorem multinomial_error (h : IdealRng rng P) (pf : Platform) [NeZero n] {l : Fin N → Fl} (hl : IsLogits l)
    (pos : Fin N → X) {f : X → ℝ} {c : ℝ} (hf : ∀ x, |f x| ≤ c) :
    ErrorAtMost P l pos (fun k => multinomial rng pf k l pos n) f (4 * c ^ 2 / n) := by
  have := h.prob
  refine errorAtMost_slots hl (I := fun k => multinomialIdx rng pf l n k) ((measurable_multinomialIdx h pf).comp
    (measurable_id.prodMk (measurable_const (a := l)))) (fun _ i => ENNReal.ofReal (nw l i)) (fun m => ?_)
    (fun i => ?_) (multinomialIdx_law h pf hl) hf fun k => multinomial_eq rng pf k l pos n
  · rw [← ENNReal.ofReal_sum_of_nonneg fun i _ => nw_nonneg l i, nw_sum hl, ENNReal.ofReal_one]
  · simp

/-- C76: so does killing resampling. -/
theorem killing_error (h : IdealRng rng P) (pf : Platform) {l : Fin N → Fl} (hl : IsLogits l)
    (pos : Fin N → X) {f : X → ℝ} {c : ℝ} (hf : ∀ x, |f x| ≤ c) :
    ErrorAtMost P l pos (fun k => killing rng pf k l pos N) f (4 * c ^ 2 / N) := by
  have := h.prob
  refine errorAtMost_slots hl (I := fun k => killingIdx rng pf l k) ((measurable_killingIdx h pf).comp
    (measurable_id.prodMk (measurable_const (a := l)))) (fun m i => ENNReal.ofReal (killingSlot l m i)) (fun m => ?_)
    (fun i => ?_) (killingIdx_law h pf hl) hf fun k => killing_eq rng pf k l pos
  · rw [← ENNReal.ofReal_sum_of_nonneg fun i _ => killingSlot_nonneg hl m i, killingSlot_sum hl, ENNReal.ofReal_one]
  · rw [← ENNReal.ofReal_sum_of_nonneg fun m _ => killingSlot_nonneg hl m i, sum_killingSlot hl,
      ENNReal.ofReal_mul (by positivity), ENNReal.ofReal_natCast]

omit [MeasurableSpace K] [NeZero N] in
/-- Adaptive resampling is either the identity or the given function. -/
theorem adaptive_error {R : Resampler K N X} [MeasurableSpace K] {P : Measure K} [IsProbabilityMeasure P]
    {l : Fin N → Fl} {pos : Fin N → X} {f : X → ℝ} {r : ℝ}
    (hR : ErrorAtMost P l pos (fun k => R k l pos N) f r) (θ : ℝ) :
    ErrorAtMost P l pos (fun k => adaptive R θ k l pos N) f r := by
  simp only [adaptive, dif_pos]
  by_cases hc : Fl.ltb (logEss l) (Fl.log (Fl.fin (θ * N))) = true
  · simp only [if_pos hc]
    exact hR
  · simp only [if_neg hc]
    refine ⟨_, fun k => rfl, measurable_const, ?_⟩
    simp

/-! ### Systematic resampling -/

/-- Alternating weights. -/
theorem sum_alternating (a b : ℝ) (m : ℕ) :
    ∑ j ∈ Finset.range (2 * m), (if j % 2 = 0 then a else b) = m * (a + b) := by
  induction m with
  | zero => simp
  | succ m ih =>
    rw [show 2 * (m + 1) = 2 * m + 1 + 1 by ring, Finset.sum_range_succ, Finset.sum_range_succ, ih,
      if_pos (by omega), if_neg (by omega)]
    push_cast
    ring

omit [MeasurableSpace K] [NeZero N] in
theorem cumBelow_val (g : ℕ → ℝ) (i : Fin N) :
    cumBelow (fun j : Fin N => g j) i = ∑ j ∈ Finset.range i, g j := by
  rw [cumBelow, ← Nat.Iio_eq_range, ← Fin.map_valEmbedding_Iio, Finset.sum_map]
  rfl

/-- C76 is false for systematic resampling: there are weights and positions, for any even number of particles, for
which the average of the positions almost surely changes by a quarter. The weights alternate between three to one and
the positions between one and zero. -/
theorem systematic_error_persists (h : IdealRng rng P) (pf : Platform) {m : ℕ} [NeZero (2 * m)] :
    ∃ (l : Fin (2 * m) → Fl) (pos : Fin (2 * m) → ℝ), IsLogits l ∧ (∀ i, pos i = 0 ∨ pos i = 1) ∧
      ∀ᵐ k ∂P, ∃ R, systematic rng pf k l pos (2 * m) = .ok R ∧
        |∑ j, nw R.logits j * R.positions j - ∑ i, nw l i * pos i| = 1 / 4 := by
  have hm : 0 < m := by have := NeZero.ne (2 * m); omega
  have hm0 : (0 : ℝ) < m := by exact_mod_cast hm
  obtain ⟨l, hl⟩ : ∃ l : Fin (2 * m) → Fl, l = fun i : Fin (2 * m) => Fl.fin (if (i : ℕ) % 2 = 0 then Real.log 3 else 0) := ⟨_, rfl⟩
  have hlog : IsLogits l := by
    rw [hl]
    exact ⟨fun i => trivial, ⟨0, by omega⟩, trivial⟩
  have hlik : ∀ i, (l i).lik = if (i : ℕ) % 2 = 0 then 3 else 1 := by
    intro i
    rw [hl]
    simp only [Fl.lik]
    split_ifs
    · exact Real.exp_log (by norm_num)
    · exact Real.exp_zero
  have hsum : ∑ j, (l j).lik = 4 * m := by
    simp only [hlik]
    rw [Fin.sum_univ_eq_sum_range (fun j => if j % 2 = 0 then (3 : ℝ) else 1) (2 * m), sum_alternating]
    ring
  have hnw : ∀ i, nw l i = (fun j : ℕ => (if j % 2 = 0 then (3 : ℝ) else 1) / (4 * m)) i := by
    intro i
    rw [nw, hsum, hlik]
  have hbelow : ∀ i : Fin (2 * m), cumBelow (nw l) i = (∑ j ∈ Finset.range i, if j % 2 = 0 then (3 : ℝ) else 1) /
      (4 * m) := by
    intro i
    rw [funext hnw, cumBelow_val fun j : ℕ => (if j % 2 = 0 then (3 : ℝ) else 1) / (4 * m), Finset.sum_div]
  refine ⟨l, fun i => if (i : ℕ) % 2 = 0 then 1 else 0, hlog, fun i => ?_, ?_⟩
  · by_cases hi : (i : ℕ) % 2 = 0
    · exact Or.inr (if_pos hi)
    · exact Or.inl (if_neg hi)
  have h1 : ∀ᵐ k ∂P, 0 < rng.uniform0 k ∧ rng.uniform0 k < 1 :=
    h.uniform0.quasiMeasurePreserving.ae unif_ae
  filter_upwards [h1] with k hk
  refine ⟨_, systematic_eq rng pf k l _ _, ?_⟩
  obtain ⟨u, hu⟩ : ∃ u, u = rng.uniform0 k := ⟨_, rfl⟩
  rw [← hu] at hk
  have hidx : ∀ j : Fin (2 * m), (systematicIdx rng pf l (2 * m) k j : ℕ) =
      if (j : ℕ) % 2 = 0 ∨ u ≤ 1 / 2 then 2 * ((j : ℕ) / 2) else 2 * ((j : ℕ) / 2) + 1 := by
    intro j
    obtain ⟨p, hp⟩ : ∃ p, p = (j : ℕ) / 2 := ⟨_, rfl⟩
    have hj := j.2
    have key : ∀ i : Fin (2 * m), cumBelow (nw l) i < (u + j) / ((2 * m : ℕ) : ℝ) →
        (u + j) / ((2 * m : ℕ) : ℝ) ≤ cum (nw l) i → systematicIdx rng pf l (2 * m) k j = i := by
      intro i h2 h3
      rw [systematicIdx, ← hu]
      exact (systematic_idx pf hlog hk.1 hk.2 j i).mpr ⟨h2, h3⟩
    rw [← hp]
    have hjp : (j : ℕ) = 2 * p ∨ (j : ℕ) = 2 * p + 1 := by omega
    have e0 : ∑ j ∈ Finset.range (2 * p), (if j % 2 = 0 then (3 : ℝ) else 1) = 4 * p := by
      rw [sum_alternating]; ring
    have e1 : ∑ j ∈ Finset.range (2 * p + 1), (if j % 2 = 0 then (3 : ℝ) else 1) = 4 * p + 3 := by
      rw [Finset.sum_range_succ, e0, if_pos (by omega)]
    split_ifs with hc
    · rw [key ⟨2 * p, by omega⟩]
      · rw [hbelow, div_lt_div_iff₀ (by positivity) (by positivity)]
        simp only [e0]
        push_cast
        rcases hjp with h2 | h2 <;> rw [h2] <;> push_cast <;> nlinarith
      · rw [cum_eq, hbelow, hnw]
        simp only [e0]
        rw [if_pos (by omega), ← add_div, div_le_div_iff₀ (by positivity) (by positivity)]
        push_cast
        rcases hjp with h2 | h2
        · rw [h2]; push_cast; nlinarith
        · rw [h2]
          have h3 : u ≤ 1 / 2 := hc.resolve_left (by omega)
          push_cast
          nlinarith
    · push Not at hc
      have h2 : (j : ℕ) = 2 * p + 1 := by omega
      rw [key ⟨2 * p + 1, by omega⟩]
      · rw [hbelow, div_lt_div_iff₀ (by positivity) (by positivity)]
        simp only [e1]
        rw [h2]
        push_cast
        nlinarith [hc.2]
      · rw [cum_eq, hbelow, hnw]
        simp only [e1]
        rw [if_neg (by omega), ← add_div, div_le_div_iff₀ (by positivity) (by positivity), h2]
        push_cast
        nlinarith
  have hzero : ∀ j : Fin (2 * m), nw (fun _ : Fin (2 * m) => (0 : Fl)) j = ((2 * m : ℕ) : ℝ)⁻¹ := nw_zero
  have hbefore : ∑ i, nw l i * (if (i : ℕ) % 2 = 0 then (1 : ℝ) else 0) = 3 / 4 := by
    simp only [hnw]
    have h2 : ∀ i : ℕ, (if i % 2 = 0 then (3 : ℝ) else 1) / (4 * m) * (if i % 2 = 0 then (1 : ℝ) else 0) =
        if i % 2 = 0 then 3 / (4 * (m : ℝ)) else 0 := by
      intro i
      split_ifs <;> simp
    rw [Fin.sum_univ_eq_sum_range (fun i => (if i % 2 = 0 then (3 : ℝ) else 1) / (4 * m) *
      (if i % 2 = 0 then (1 : ℝ) else 0)) (2 * m)]
    simp only [h2]
    rw [sum_alternating]
    field_simp
    ring
  have hafter : ∑ j, nw (fun _ : Fin (2 * m) => (0 : Fl)) j *
      (if (systematicIdx rng pf l (2 * m) k j : ℕ) % 2 = 0 then (1 : ℝ) else 0) = if u ≤ 1 / 2 then 1 else 1 / 2 := by
    simp only [hzero, hidx]
    have h2 : ∀ j : ℕ, ((2 * m : ℕ) : ℝ)⁻¹ * (if (if j % 2 = 0 ∨ u ≤ 1 / 2 then 2 * (j / 2) else 2 * (j / 2) + 1) % 2 =
        0 then (1 : ℝ) else 0) = if j % 2 = 0 then ((2 * m : ℕ) : ℝ)⁻¹ else if u ≤ 1 / 2 then ((2 * m : ℕ) : ℝ)⁻¹ else 0 := by
      intro j
      by_cases hj : j % 2 = 0
      · simp [hj]
      · by_cases hc : u ≤ 1 / 2
        · rw [if_pos (Or.inr hc), if_pos (by omega), if_neg hj, if_pos hc, mul_one]
        · rw [if_neg (not_or.mpr ⟨hj, hc⟩), if_neg (by omega), if_neg hj, if_neg hc, mul_zero]
    rw [Fin.sum_univ_eq_sum_range (fun j => ((2 * m : ℕ) : ℝ)⁻¹ * (if (if j % 2 = 0 ∨ u ≤ 1 / 2 then 2 * (j / 2) else
      2 * (j / 2) + 1) % 2 = 0 then (1 : ℝ) else 0)) (2 * m)]
    simp only [h2]
    rw [sum_alternating]
    push_cast
    split_ifs
    · field_simp
      ring
    · field_simp
      ring
  simp only
  rw [hafter, hbefore]
  split_ifs <;> norm_num [abs_of_nonneg, abs_of_neg]

/-- The hypotheses of C76 are met. -/
example : ∃ rng : Rng Key, ErrorAtMost (n := 7) keyLaw (fun i : Fin 3 => Fl.fin i) (fun i => (i : ℝ))
    (fun k => multinomial rng .cpu k (fun i : Fin 3 => Fl.fin i) (fun i => (i : ℝ)) 7) Real.sin (4 / 7) := by
  obtain ⟨rng, h, -⟩ := exists_ideal_indep
  refine ⟨rng, ?_⟩
  have h1 := multinomial_error (n := 7) h .cpu (l := fun i : Fin 3 => Fl.fin (i : ℕ)) ⟨fun _ => trivial, 0, trivial⟩
    (fun i : Fin 3 => ((i : ℕ) : ℝ)) (f := Real.sin) (c := 1) Real.abs_sin_le_one
  norm_num at h1
  exact h1

example : ∃ rng : Rng Key, ∃ (l : Fin (2 * 5) → Fl) (pos : Fin (2 * 5) → ℝ), IsLogits l ∧ (∀ i, pos i = 0 ∨ pos i = 1) ∧
    ∀ᵐ k ∂keyLaw, ∃ R, systematic rng .cpu k l pos (2 * 5) = .ok R ∧
      |∑ j, nw R.logits j * R.positions j - ∑ i, nw l i * pos i| = 1 / 4 := by
  obtain ⟨rng, h, -⟩ := exists_ideal_indep
  exact ⟨rng, systematic_error_persists h .cpu⟩

end

end Cuthbert.Resampling
