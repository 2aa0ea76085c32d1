import Verif.Props.ResamplingError

/-!
# Properties: which resampling scheme has the largest variance (C122)
-/

namespace Cuthbert.Resampling
open MeasureTheory Set SMC
open scoped ENNReal

noncomputable section

attribute [local irreducible] multinomialIdx killingIdx

variable {K K' X : Type} [MeasurableSpace K] [MeasurableSpace K'] {P : Measure K} {Q : Measure K'} {rng : Rng K}
  {N n : ℕ}

/-! ## C122 -/

/-- Resampling never raises, and `v` is the mean squared difference between the average of `f` after resampling and
before. -/
def ErrorIs (P : Measure K) (l : Fin N → Fl) (pos : Fin N → X) (res : K → Except Err (Resampled N n X))
    (f : X → ℝ) (v : ℝ) : Prop :=
  ∃ R : K → Resampled N n X, (∀ k, res k = .ok (R k)) ∧
    ∫ k, (∑ m, nw (R k).logits m * f ((R k).positions m) - ∑ i, nw l i * f (pos i)) ^ 2 ∂P = v

/-- The variance of `f` under the weights. -/
def weightedVar (l : Fin N → Fl) (pos : Fin N → X) (f : X → ℝ) : ℝ :=
  ∑ i, nw l i * (f (pos i) - ∑ j, nw l j * f (pos j)) ^ 2

/-! ### Independent slots -/

theorem sum_prod_real {q : Fin n → Fin N → ℝ} (F : Fin n → Fin N → ℝ) :
    ∑ a : Fin n → Fin N, (∏ j, q j (a j)) * ∏ j, F j (a j) = ∏ j, ∑ b, q j b * F j b := by
  rw [Finset.prod_univ_sum]
  simp only [Fintype.piFinset_univ, Finset.prod_mul_distrib]

theorem sum_prod_one {q : Fin n → Fin N → ℝ} (hq : ∀ m, ∑ b, q m b = 1) (m : Fin n) (G : Fin N → ℝ) :
    ∑ a : Fin n → Fin N, (∏ j, q j (a j)) * G (a m) = ∑ b, q m b * G b := by
  have h := sum_prod_real (q := q) fun j b => if j = m then G b else 1
  have e : ∀ a : Fin n → Fin N, (∏ j, if j = m then G (a j) else 1) = G (a m) := fun a => by
    rw [Finset.prod_ite_eq' Finset.univ m fun j => G (a j)]; simp
  simp only [e] at h
  rw [h, Finset.prod_eq_single m]
  · simp
  · intro j _ hj
    simp [hj, hq]
  · simp

theorem sum_prod_pair {q : Fin n → Fin N → ℝ} (hq : ∀ m, ∑ b, q m b = 1) {m m' : Fin n} (hne : m ≠ m')
    (G G' : Fin N → ℝ) :
    ∑ a : Fin n → Fin N, (∏ j, q j (a j)) * (G (a m) * G' (a m')) = (∑ b, q m b * G b) * ∑ b, q m' b * G' b := by
  have h := sum_prod_real (q := q) fun j b => (if j = m then G b else 1) * if j = m' then G' b else 1
  have e : ∀ a : Fin n → Fin N, (∏ j, (if j = m then G (a j) else 1) * if j = m' then G' (a j) else 1) =
      G (a m) * G' (a m') := fun a => by
    rw [Finset.prod_mul_distrib, Finset.prod_ite_eq' Finset.univ m fun j => G (a j),
      Finset.prod_ite_eq' Finset.univ m' fun j => G' (a j)]
    simp
  simp only [e] at h
  rw [h, Finset.prod_eq_mul m m' hne]
  · simp [hne, hne.symm]
  · rintro j - ⟨h1, h2⟩
    simp [h1, h2, hq]
  · simp
  · simp

/-- The variance of an average of independent slots. -/
theorem variance_slots [NeZero n] {q : Fin n → Fin N → ℝ} (hq : ∀ m, ∑ b, q m b = 1) (g : Fin N → ℝ) (c : Fin n → ℝ)
    (hc : ∀ m, c m = ∑ b, q m b * g b) (μ : ℝ) (hμ : ∑ m, c m = n * μ) :
    ∑ a : Fin n → Fin N, (∏ j, q j (a j)) * (∑ m, (n : ℝ)⁻¹ * g (a m) - μ) ^ 2 =
      (∑ m, ∑ b, q m b * (g b - c m) ^ 2) / (n : ℝ) ^ 2 := by
  have hn : (n : ℝ) ≠ 0 := by exact_mod_cast NeZero.ne n
  have h1 : ∀ a : Fin n → Fin N, (∑ m, (n : ℝ)⁻¹ * g (a m) - μ) ^ 2 =
      (∑ m, ∑ m', (g (a m) - c m) * (g (a m') - c m')) / (n : ℝ) ^ 2 := by
    intro a
    rw [← Finset.sum_mul_sum, Finset.sum_sub_distrib, hμ, ← Finset.mul_sum]
    field_simp
  have h2 : ∀ m, ∑ b, q m b * (g b - c m) = 0 := by
    intro m
    simp only [mul_sub, Finset.sum_sub_distrib, ← Finset.sum_mul, hq, one_mul, ← hc, sub_self]
  simp only [h1, mul_div_assoc']
  rw [← Finset.sum_div]
  congr 1
  simp only [Finset.mul_sum]
  rw [Finset.sum_comm]
  refine Finset.sum_congr rfl fun m _ => ?_
  rw [Finset.sum_comm, Finset.sum_eq_single m]
  · rw [← sum_prod_one hq m fun b => (g b - c m) ^ 2]
    exact Finset.sum_congr rfl fun a _ => by ring
  · intro m' _ hne
    rw [sum_prod_pair hq hne.symm (fun b => g b - c m) fun b => g b - c m', h2, zero_mul]
  · simp

/-- Expectations of functions of the indices. -/
theorem integral_slots [IsProbabilityMeasure P] {I : K → Fin n → Fin N} (hm : Measurable I) (q : Fin n → Fin N → ℝ)
    (hq : ∀ m b, 0 ≤ q m b)
    (hlaw : ∀ G : (Fin n → Fin N) → ℝ≥0∞, ∫⁻ k, G (I k) ∂P = ∑ a, (∏ m, ENNReal.ofReal (q m (a m))) * G a)
    (F : (Fin n → Fin N) → ℝ) : ∫ k, F (I k) ∂P = ∑ a, (∏ m, q m (a m)) * F a := by
  have := Measure.isProbabilityMeasure_map (μ := P) hm.aemeasurable
  rw [← integral_map (φ := I) hm.aemeasurable (measurable_of_finite F).aestronglyMeasurable,
    integral_fintype (Integrable.of_finite)]
  refine Finset.sum_congr rfl fun a _ => ?_
  rw [smul_eq_mul]
  congr 1
  rw [measureReal_def, Measure.map_apply hm (measurableSet_singleton a)]
  have h1 := hlaw (({a} : Set (Fin n → Fin N)).indicator 1)
  have h2 : (fun k => ({a} : Set (Fin n → Fin N)).indicator (1 : (Fin n → Fin N) → ℝ≥0∞) (I k)) =
      (I ⁻¹' {a}).indicator 1 := by
    funext k
    rfl
  rw [h2, lintegral_indicator_one (hm (measurableSet_singleton a))] at h1
  rw [h1, Finset.sum_eq_single a]
  · simp only [indicator_of_mem (mem_singleton a), Pi.one_apply, mul_one]
    rw [ENNReal.toReal_prod]
    exact Finset.prod_congr rfl fun m _ => ENNReal.toReal_ofReal (hq _ _)
  · intro b _ hb
    simp [indicator_of_notMem (show b ∉ ({a} : Set (Fin n → Fin N)) from hb)]
  · simp

theorem errorIs_slots [IsProbabilityMeasure P] [NeZero n] {l : Fin N → Fl} {I : K → Fin n → Fin N} (hm : Measurable I)
    (q : Fin n → Fin N → ℝ) (hq : ∀ m b, 0 ≤ q m b) (hq1 : ∀ m, ∑ b, q m b = 1)
    (hmean : ∀ i, ∑ m, q m i = n * nw l i)
    (hlaw : ∀ G : (Fin n → Fin N) → ℝ≥0∞, ∫⁻ k, G (I k) ∂P = ∑ a, (∏ m, ENNReal.ofReal (q m (a m))) * G a)
    {pos : Fin N → X} (f : X → ℝ) {res : K → Except Err (Resampled N n X)}
    (hres : ∀ k, res k = .ok ⟨I k, fun _ => 0, fun m => pos (I k m)⟩) :
    ErrorIs P l pos res f
      ((∑ m, ∑ b, q m b * (f (pos b) - ∑ j, q m j * f (pos j)) ^ 2) / (n : ℝ) ^ 2) := by
  have h1 : ∀ m : Fin n, nw (fun _ : Fin n => (0 : Fl)) m = (n : ℝ)⁻¹ := nw_zero
  refine ⟨_, hres, ?_⟩
  simp only [h1]
  rw [integral_slots hm q hq hlaw fun a => (∑ m, (n : ℝ)⁻¹ * f (pos (a m)) - ∑ i, nw l i * f (pos i)) ^ 2]
  refine variance_slots hq1 (fun i => f (pos i)) _ (fun m => rfl) _ ?_
  rw [Finset.sum_comm, Finset.mul_sum]
  refine Finset.sum_congr rfl fun i _ => ?_
  rw [← Finset.sum_mul, hmean, mul_assoc]

variable [NeZero N]

/-- C122: the variance of multinomial resampling is that of independent draws from the weighted sample. -/
theorem multinomial_variance (h : IdealRng rng P) (pf : Platform) [NeZero n] {l : Fin N → Fl} (hl : IsLogits l)
    (pos : Fin N → X) (f : X → ℝ) :
    ErrorIs P l pos (fun k => multinomial rng pf k l pos n) f (weightedVar l pos f / n) := by
  have := h.prob
  have hn : (n : ℝ) ≠ 0 := by exact_mod_cast NeZero.ne n
  have h1 := errorIs_slots (P := P) (l := l) (I := fun k => multinomialIdx rng pf l n k)
    ((measurable_multinomialIdx h pf).comp (measurable_id.prodMk (measurable_const (a := l))))
    (fun _ i => nw l i) (fun _ i => nw_nonneg l i) (fun _ => nw_sum hl) (fun i => by simp)
    (multinomialIdx_law h pf hl) (pos := pos) f fun k => multinomial_eq rng pf k l pos n
  rw [Finset.sum_const, Finset.card_univ, Fintype.card_fin, nsmul_eq_mul] at h1
  rw [weightedVar]
  convert h1 using 1
  field_simp

/-- C122: killing resampling never has a larger variance than multinomial resampling, whatever the function that is
averaged. -/
theorem killing_variance_le (h : IdealRng rng P) (pf : Platform) {l : Fin N → Fl} (hl : IsLogits l)
    (pos : Fin N → X) (f : X → ℝ) :
    ∃ v ≤ weightedVar l pos f / N, ErrorIs P l pos (fun k => killing rng pf k l pos N) f v := by
  have := h.prob
  have hn : (0 : ℝ) < N := by exact_mod_cast NeZero.pos N
  refine ⟨_, ?_, errorIs_slots (P := P) (l := l) (I := fun k => killingIdx rng pf l k)
    ((measurable_killingIdx h pf).comp (measurable_id.prodMk (measurable_const (a := l))))
    (fun m i => killingSlot l m i) (fun m i => killingSlot_nonneg hl m i) (fun m => killingSlot_sum hl m)
    (fun i => sum_killingSlot hl i)
    (killingIdx_law h pf hl) (pos := pos) f fun k => killing_eq rng pf k l pos⟩
  obtain ⟨μ, hμ⟩ : ∃ μ, μ = ∑ j, nw l j * f (pos j) := ⟨_, rfl⟩
  have h1 : ∀ m, ∑ b, killingSlot l m b * (f (pos b) - ∑ j, killingSlot l m j * f (pos j)) ^ 2 ≤
      ∑ b, killingSlot l m b * (f (pos b) - μ) ^ 2 := by
    intro m
    obtain ⟨c, hc⟩ : ∃ c, c = ∑ j, killingSlot l m j * f (pos j) := ⟨_, rfl⟩
    rw [← hc]
    have h2 : ∑ b, killingSlot l m b * (f (pos b) - μ) ^ 2 =
        ∑ b, killingSlot l m b * (f (pos b) - c) ^ 2 + (c - μ) ^ 2 := by
      have h3 : ∀ b, killingSlot l m b * (f (pos b) - μ) ^ 2 = killingSlot l m b * (f (pos b) - c) ^ 2 +
          (2 * (c - μ) * (killingSlot l m b * f (pos b)) + killingSlot l m b * ((c - μ) ^ 2 - 2 * (c - μ) * c)) :=
        fun b => by ring
      simp only [h3, Finset.sum_add_distrib, ← Finset.mul_sum, ← Finset.sum_mul, killingSlot_sum hl, ← hc]
      ring
    rw [h2]
    linarith [sq_nonneg (c - μ)]
  rw [div_le_div_iff₀ (by positivity) hn]
  have h4 : ∑ m, ∑ b, killingSlot l m b * (f (pos b) - μ) ^ 2 = N * weightedVar l pos f := by
    rw [Finset.sum_comm, weightedVar, ← hμ, Finset.mul_sum]
    refine Finset.sum_congr rfl fun i _ => ?_
    rw [← Finset.sum_mul, sum_killingSlot hl, mul_assoc]
  have h5 := Finset.sum_le_sum fun m (_ : m ∈ Finset.univ) => h1 m
  rw [h4] at h5
  nlinarith

/-- C122 is false for systematic resampling: for any even number of at least six particles there are weights and
positions for which its variance is strictly larger than that of multinomial resampling. The ratio of the two variances
is unbounded. -/
theorem systematic_variance_larger (h : IdealRng rng P) (pf : Platform) {m : ℕ} [NeZero (2 * m)] :
    ∃ (l : Fin (2 * m) → Fl) (pos : Fin (2 * m) → ℝ) (v v' : ℝ), IsLogits l ∧
      ErrorIs P l pos (fun k => multinomial rng pf k l pos (2 * m)) id v ∧
      ErrorIs P l pos (fun k => systematic rng pf k l pos (2 * m)) id v' ∧ v' = 1 / 16 ∧ v ≤ 1 / (8 * m) := by
  have := h.prob
  obtain ⟨l, pos, hl, h01, hae⟩ := systematic_error_persists h pf (m := m)
  refine ⟨l, pos, _, 1 / 16, hl, multinomial_variance h pf hl pos id, ⟨_, fun k => systematic_eq rng pf k l pos _, ?_⟩,
    rfl, ?_⟩
  · rw [integral_congr_ae (g := fun _ => (1 / 16 : ℝ)), integral_const, probReal_univ, one_smul]
    filter_upwards [hae] with k hk
    obtain ⟨R, hR, hq⟩ := hk
    rw [systematic_eq] at hR
    obtain rfl := Except.ok.inj hR
    simp only [id]
    rw [← sq_abs, hq]
    norm_num
  · have hm : (0 : ℝ) < m := by
      have := NeZero.ne (2 * m)
      exact_mod_cast (show 0 < m by omega)
    push_cast
    rw [div_le_div_iff₀ (by positivity) (by positivity),
      show weightedVar l pos id * (8 * m) = (weightedVar l pos id * 4) * (2 * m) by ring]
    refine mul_le_mul_of_nonneg_right ?_ (by positivity)
    rw [weightedVar]
    simp only [id]
    obtain ⟨μ, hμ⟩ : ∃ μ, μ = ∑ j, nw l j * pos j := ⟨_, rfl⟩
    have h3 : ∀ i, nw l i * (pos i - μ) ^ 2 = nw l i * pos i - 2 * μ * (nw l i * pos i) + nw l i * μ ^ 2 := by
      intro i
      rcases h01 i with h | h <;> rw [h] <;> ring
    rw [← hμ]
    simp only [h3, Finset.sum_add_distrib, Finset.sum_sub_distrib, ← Finset.mul_sum, ← Finset.sum_mul, nw_sum hl, ← hμ]
    nlinarith [sq_nonneg (μ - 1 / 2)]

/-! ### The number of copies of one particle -/

/-- An unbiased count that takes neighbouring values has the least variance. -/
theorem integral_count_sq [IsProbabilityMeasure P] {C : K → ℕ} (hC : Measurable C) (hb : ∀ k, C k ≤ n) {μ : ℝ} (a : ℤ)
    (hμ : ∫ k, (C k : ℝ) ∂P = μ) :
    ∫ k, ((C k : ℝ) - μ) ^ 2 ∂P =
      (∫ k, ((C k : ℝ) - a) * ((C k : ℝ) - (a + 1)) ∂P) + (μ - a) * (a + 1 - μ) := by
  have hCm : Measurable fun k => (C k : ℝ) := measurable_from_nat.comp hC
  have hi : Integrable (fun k => (C k : ℝ)) P := by
    refine Integrable.of_bound hCm.aestronglyMeasurable n (Filter.Eventually.of_forall fun k => ?_)
    rw [Real.norm_of_nonneg (by positivity)]
    exact_mod_cast hb k
  have hi2 : Integrable (fun k => ((C k : ℝ) - a) * ((C k : ℝ) - (a + 1))) P := by
    have h1 : Measurable fun k => ((C k : ℝ) - a) * ((C k : ℝ) - (a + 1)) :=
      (hCm.sub_const _).mul (hCm.sub_const _)
    refine Integrable.of_bound h1.aestronglyMeasurable ((n + |(a : ℝ)|) * (n + (|(a : ℝ)| + 1)))
      (Filter.Eventually.of_forall fun k => ?_)
    have h2 : (C k : ℝ) ≤ n := by exact_mod_cast hb k
    have h3 : (0 : ℝ) ≤ C k := by positivity
    rw [norm_mul, Real.norm_eq_abs, Real.norm_eq_abs]
    refine mul_le_mul ((abs_sub _ _).trans ?_) ((abs_sub _ _).trans ?_) (abs_nonneg _) (by positivity)
    · rw [abs_of_nonneg h3]; linarith
    · rw [abs_of_nonneg h3]
      have := abs_add_le (a : ℝ) 1
      rw [abs_one] at this
      linarith
  have e : ∀ k, ((C k : ℝ) - μ) ^ 2 = ((C k : ℝ) - a) * ((C k : ℝ) - (a + 1)) +
      ((2 * a + 1 - 2 * μ) * (C k : ℝ) + (μ ^ 2 - a * (a + 1))) := fun k => by ring
  simp only [e]
  have hi3 : Integrable (fun k => (2 * a + 1 - 2 * μ) * (C k : ℝ) + (μ ^ 2 - a * (a + 1))) P :=
    (hi.const_mul _).add (integrable_const _)
  rw [integral_add hi2 hi3, integral_add (hi.const_mul _) (integrable_const _), integral_const_mul, hμ, integral_const, probReal_univ, one_smul]
  ring

omit [NeZero N] in
theorem measurable_copies {R : K → Resampled N n X} (hR : ∀ m i, MeasurableSet {k | (R k).idx m = i}) (i : Fin N) :
    Measurable fun k => copies (R k) i := by
  simp only [copies, Finset.card_filter]
  exact Finset.measurable_sum _ fun m _ => Measurable.ite (hR m i) measurable_const measurable_const

omit [NeZero N] in
theorem integral_copies [IsProbabilityMeasure P] {R : K → Resampled N n X} {l : Fin N → Fl}
    (hR : ∀ m i, MeasurableSet {k | (R k).idx m = i}) {i : Fin N}
    (h : ∫⁻ k, (copies (R k) i : ℝ≥0∞) ∂P = n * ENNReal.ofReal (nw l i)) :
    ∫ k, (copies (R k) i : ℝ) ∂P = n * nw l i := by
  have hm : Measurable fun k => (copies (R k) i : ℝ) := measurable_from_nat.comp (measurable_copies hR i)
  rw [integral_eq_lintegral_of_nonneg_ae (Filter.Eventually.of_forall fun k => by positivity) hm.aestronglyMeasurable]
  simp only [ENNReal.ofReal_natCast]
  rw [h, ENNReal.toReal_mul, ENNReal.toReal_natCast, ENNReal.toReal_ofReal (nw_nonneg l i)]

omit [NeZero N] in
theorem copies_le (R : Resampled N n X) (i : Fin N) : copies R i ≤ n := by
  rw [copies]
  exact (Finset.card_filter_le _ _).trans (by simp)

/-- C122: for the number of copies of a single particle systematic resampling has the least variance of all unbiased
resampling schemes. -/
theorem systematic_copies_least_variance (h : IdealRng rng P) (pf : Platform) [IsProbabilityMeasure Q] (hn : 0 < n)
    {l : Fin N → Fl} (hl : IsLogits l) (pos : Fin N → X) {res : K' → Except Err (Resampled N n X)}
    (hres : Unbiased Q l pos res) :
    ∃ (R : K → Resampled N n X) (R' : K' → Resampled N n X),
      (∀ k, systematic rng pf k l pos n = .ok (R k)) ∧ (∀ k, res k = .ok (R' k)) ∧
      ∀ i, ∫ k, ((copies (R k) i : ℝ) - n * nw l i) ^ 2 ∂P ≤ ∫ k, ((copies (R' k) i : ℝ) - n * nw l i) ^ 2 ∂Q := by
  have := h.prob
  obtain ⟨R, h1, -, h3, h4⟩ := systematic_unbiased h pf hl pos n
  obtain ⟨R', h1', -, h3', h4'⟩ := hres
  refine ⟨R, R', h1, h1', fun i => ?_⟩
  rw [integral_count_sq (measurable_copies h3 i) (fun k => copies_le (R k) i) ⌊n * nw l i⌋ (integral_copies h3 (h4 i)),
    integral_count_sq (measurable_copies h3' i) (fun k => copies_le (R' k) i) ⌊n * nw l i⌋
      (integral_copies h3' (h4' i))]
  refine add_le_add_left ?_ _
  have hz : ∫ k, ((copies (R k) i : ℝ) - ⌊n * nw l i⌋) * ((copies (R k) i : ℝ) - (⌊n * nw l i⌋ + 1)) ∂P = 0 := by
    rw [integral_congr_ae (g := fun _ => (0 : ℝ)), integral_zero]
    have h5 : ∀ᵐ k ∂P, 0 < rng.uniform0 k ∧ rng.uniform0 k < 1 := h.uniform0.quasiMeasurePreserving.ae unif_ae
    filter_upwards [h5] with k hk
    obtain ⟨r, hr, hc⟩ := systematic_counts rng pf k hk.1 hl pos hn i
    obtain rfl := Except.ok.inj ((h1 k).symm.trans hr)
    have h6 : (copies (R k) i : ℤ) = ⌊n * nw l i⌋ ∨ (copies (R k) i : ℤ) = ⌊n * nw l i⌋ + 1 := by
      rcases hc with hc | hc
      · exact Or.inl hc
      · have := Int.ceil_le_floor_add_one (n * nw l i)
        have := Int.floor_le_ceil (n * nw l i)
        omega
    rcases h6 with h6 | h6
    · have h7 : (copies (R k) i : ℝ) = ⌊n * nw l i⌋ := by exact_mod_cast h6
      rw [h7, sub_self, zero_mul]
    · have h7 : (copies (R k) i : ℝ) = ⌊n * nw l i⌋ + 1 := by exact_mod_cast h6
      rw [h7, sub_self, mul_zero]
  rw [hz]
  refine integral_nonneg fun k => ?_
  have h8 : 0 ≤ ((copies (R' k) i : ℤ) - ⌊n * nw l i⌋) * ((copies (R' k) i : ℤ) - (⌊n * nw l i⌋ + 1)) := by
    obtain ⟨z, hz⟩ : ∃ z : ℤ, z = (copies (R' k) i : ℤ) - ⌊n * nw l i⌋ := ⟨_, rfl⟩
    rw [← sub_sub, ← hz]
    rcases le_or_gt z 0 with h9 | h9
    · nlinarith
    · exact mul_nonneg h9.le (by omega)
  simp only [Pi.zero_apply]
  exact_mod_cast h8

/-- The hypotheses of C122 are met, and killing can be strictly better: with equal weights it never moves the average. -/
example : ∃ rng : Rng Key, IdealRng rng keyLaw ∧
    ErrorIs keyLaw (fun _ : Fin 3 => Fl.fin 0) (fun i => (i : ℝ))
      (fun k => multinomial rng .cpu k (fun _ : Fin 3 => Fl.fin 0) (fun i => (i : ℝ)) 3) id (2 / 9) := by
  obtain ⟨rng, h, -⟩ := exists_ideal_indep
  refine ⟨rng, h, ?_⟩
  have h1 := multinomial_variance (n := 3) h .cpu (l := fun _ : Fin 3 => Fl.fin 0) ⟨fun _ => trivial, 0, trivial⟩
    (fun i : Fin 3 => ((i : ℕ) : ℝ)) id
  convert h1 using 1
  have h2 : ∀ i : Fin 3, nw (fun _ : Fin 3 => Fl.fin 0) i = ((3 : ℕ) : ℝ)⁻¹ := nw_zero
  simp only [weightedVar, h2, id, Fin.sum_univ_three]
  norm_num

/-- For six particles or more the counterexample is strict. -/
example : ∃ rng : Rng Key, ∃ (l : Fin (2 * 5) → Fl) (pos : Fin (2 * 5) → ℝ) (v v' : ℝ), IsLogits l ∧
    ErrorIs keyLaw l pos (fun k => multinomial rng .cpu k l pos (2 * 5)) id v ∧
    ErrorIs keyLaw l pos (fun k => systematic rng .cpu k l pos (2 * 5)) id v' ∧ v < v' := by
  obtain ⟨rng, h, -⟩ := exists_ideal_indep
  obtain ⟨l, pos, v, v', hl, h1, h2, h3, h4⟩ := systematic_variance_larger h .cpu (m := 5)
  exact ⟨rng, l, pos, v, v', hl, h1, h2, by rw [h3]; norm_num at h4; linarith⟩

/-- Killing is one of the schemes that systematic resampling is compared with. -/
example : ∃ rng : Rng Key, ∃ R R' : Key → Resampled 3 3 ℝ,
    (∀ k, systematic rng .cpu k (fun i : Fin 3 => Fl.fin i) (fun i => (i : ℝ)) 3 = .ok (R k)) ∧
    (∀ k, killing rng .cpu k (fun i : Fin 3 => Fl.fin i) (fun i => (i : ℝ)) 3 = .ok (R' k)) ∧
    ∀ i, ∫ k, ((copies (R k) i : ℝ) - (3 : ℕ) * nw (fun i : Fin 3 => Fl.fin i) i) ^ 2 ∂keyLaw ≤
      ∫ k, ((copies (R' k) i : ℝ) - (3 : ℕ) * nw (fun i : Fin 3 => Fl.fin i) i) ^ 2 ∂keyLaw := by
  obtain ⟨rng, h, -⟩ := exists_ideal_indep
  have := h.prob
  have hl : IsLogits fun i : Fin 3 => Fl.fin (i : ℕ) := ⟨fun _ => trivial, 0, trivial⟩
  exact ⟨rng, systematic_copies_least_variance h .cpu (by norm_num) hl _ (killing_unbiased h .cpu hl _)⟩

end

end Cuthbert.Resampling
