import Mathlib.MeasureTheory.Integral.IntervalIntegral.Periodic
import Mathlib.MeasureTheory.Constructions.BorelSpace.Order
import Verif.Lemmas.SortedUniforms
import Verif.Lemmas.ConditionalLaw

/-!
# Lemmas on conditional systematic resampling

The slots of systematic resampling are equally spaced points on a circle that is divided into arcs
of lengths `w_0, w_1, ...`.
-/

namespace Cuthbert.Resampling
open MeasureTheory Set
open scoped ENNReal

noncomputable section

variable {N n : ℕ} [NeZero N]

/-! ### The circle -/

/-- The arc containing the point `x` of the circle `ℝ / ℤ`. -/
def arc (pf : Platform) (l : Fin N → Fl) (x : ℝ) : Fin N := cell pf l (1 - Int.fract (-x))

theorem arc_iff (pf : Platform) {l : Fin N → Fl} (hl : IsLogits l) (x : ℝ) (i : Fin N) :
    arc pf l x = i ↔ ∃ k : ℤ, cumBelow (nw l) i < x + k ∧ x + k ≤ cum (nw l) i := by
  have h0 := Int.fract_nonneg (-x)
  have h1 := Int.fract_lt_one (-x)
  have hx : 1 - Int.fract (-x) = x + ((1 + ⌊-x⌋ : ℤ) : ℝ) := by
    rw [Int.fract]; push_cast; ring
  rw [arc, cell_iff pf hl (by linarith) (by linarith)]
  constructor
  · rintro ⟨h2, h3⟩
    exact ⟨1 + ⌊-x⌋, by rwa [← hx], by rwa [← hx]⟩
  · rintro ⟨k, h2, h3⟩
    have hb0 := cumBelow_nonneg (nw_nonneg l) i
    have hc1 : cum (nw l) i ≤ 1 := (cum_le_sum (nw_nonneg l) i).trans (nw_sum hl).le
    have hk : k = 1 + ⌊-x⌋ := by
      have hlo : (0 : ℝ) < x + k := by linarith
      have hhi : x + k ≤ 1 := by linarith
      have e : x + k - (x + ((1 + ⌊-x⌋ : ℤ) : ℝ)) = ((k - (1 + ⌊-x⌋) : ℤ) : ℝ) := by push_cast; ring
      have h4 : ((k - (1 + ⌊-x⌋) : ℤ) : ℝ) < 1 := by rw [← e, ← hx]; linarith
      have h5 : (-1 : ℝ) < ((k - (1 + ⌊-x⌋) : ℤ) : ℝ) := by rw [← e, ← hx]; linarith
      have h4' : k - (1 + ⌊-x⌋) < 1 := by exact_mod_cast h4
      have h5' : -1 < k - (1 + ⌊-x⌋) := by exact_mod_cast h5
      omega
    rw [hx, ← hk]
    exact ⟨h2, h3⟩

theorem arc_add_int (pf : Platform) (l : Fin N → Fl) (x : ℝ) (k : ℤ) :
    arc pf l (x + k) = arc pf l x := by
  rw [arc, arc]
  congr 2
  rw [show -(x + k) = -x + ((-k : ℤ) : ℝ) by push_cast; ring, Int.fract_add_intCast]

theorem arc_of_mem (pf : Platform) (l : Fin N → Fl) {x : ℝ} (h0 : 0 < x) (h1 : x < 1) :
    arc pf l x = cell pf l x := by
  rw [arc]
  congr 1
  have : Int.fract (-x) = 1 - x := by
    rw [Int.fract_eq_iff]
    exact ⟨by linarith, by linarith, -1, by push_cast; ring⟩
  rw [this]; ring

theorem measurable_arc (pf : Platform) (l : Fin N → Fl) : Measurable (arc pf l) := by
  have h1 : Measurable fun x : ℝ => 1 - Int.fract (-x) :=
    measurable_const.sub (measurable_fract.comp measurable_neg)
  exact (measurable_cell' pf l).comp h1

/-! ### Rotating the arcs -/

theorem cumBelow_rotate {w : Fin N → ℝ} (hw : ∑ i, w i = 1) (i j : Fin N) :
    ∃ e : ℤ, cumBelow w (j + i) = cumBelow w i + cumBelow (fun j => w (j + i)) j + e := by
  obtain ⟨k, hk⟩ : ∃ k, k = (j : ℕ) := ⟨_, rfl⟩
  induction k generalizing j with
  | zero =>
    have hj : j = 0 := Fin.ext (by rw [← hk]; rfl)
    refine ⟨0, ?_⟩
    rw [hj, cumBelow_zero _ 0 rfl, zero_add]
    simp
  | succ k ih =>
    have hkN : k < N := by have := j.isLt; omega
    obtain ⟨e, he⟩ := ih ⟨k, hkN⟩ rfl
    obtain ⟨p, hp⟩ : ∃ p : Fin N, p = ⟨k, hkN⟩ := ⟨_, rfl⟩
    rw [← hp] at he
    have hjp : j = p + 1 := by
      have h1N : 1 < N := by have := j.isLt; omega
      apply Fin.ext
      rw [Fin.val_add, hp, ← hk, Fin.val_one', Nat.mod_eq_of_lt h1N, Nat.mod_eq_of_lt]
      rw [hk]; exact j.isLt
    rw [cumBelow_succ (fun j => w (j + i)) p j (by rw [hp, ← hk]), cum_eq]
    have hji : j + i = (p + i) + 1 := by rw [hjp]; exact add_right_comm _ _ _
    by_cases hlast : ((p + i : Fin N) : ℕ) + 1 = N
    · have hz : j + i = 0 := by
        rw [hji]
        apply Fin.ext
        rw [Fin.val_add]
        have h1N : 1 < N := by have := j.isLt; omega
        rw [Fin.val_one', Nat.mod_eq_of_lt h1N, hlast, Nat.mod_self]
        rfl
      refine ⟨e - 1, ?_⟩
      have h1 : cum w (p + i) = 1 := by rw [cum_last w _ hlast, hw]
      rw [cum_eq, he] at h1
      rw [hz, cumBelow_zero _ 0 rfl]
      push_cast
      linarith
    · refine ⟨e, ?_⟩
      have hlt : ((p + i : Fin N) : ℕ) + 1 < N := by have := (p + i : Fin N).isLt; omega
      have hv : ((j + i : Fin N) : ℕ) = ((p + i : Fin N) : ℕ) + 1 := by
        have h1N : 1 < N := by have := j.isLt; omega
        rw [hji, Fin.val_add, Fin.val_one', Nat.mod_eq_of_lt h1N, Nat.mod_eq_of_lt hlt]
      rw [cumBelow_succ w (p + i) (j + i) hv, cum_eq, he]
      ring

/-- Rotating the weights rotates the circle. -/
theorem arc_rotate (pf : Platform) {l l' : Fin N → Fl} (hl : IsLogits l) (hl' : IsLogits l')
    (i : Fin N) (hrot : ∀ j, nw l' j = nw l (j + i)) (x : ℝ) :
    arc pf l (cumBelow (nw l) i + x) = arc pf l' x + i := by
  rw [arc_iff pf hl]
  obtain ⟨k, h1, h2⟩ := (arc_iff pf hl' x _).mp rfl
  obtain ⟨e, he⟩ := cumBelow_rotate (nw_sum hl) i (arc pf l' x)
  have hw : nw l' = fun j => nw l (j + i) := funext hrot
  rw [← hw] at he
  refine ⟨k + e, ?_, ?_⟩
  · rw [he]; push_cast; linarith
  · rw [cum_eq] at h2 ⊢
    rw [he, ← hrot]; push_cast; linarith

/-! ### Integrals over a period -/

omit [NeZero N] in
theorem lintegral_period {T : ℝ} (hT : 0 < T) {g : ℝ → ℝ≥0∞} (hg : ∀ t (k : ℤ), g (t + k * T) = g t)
    (d : ℝ) : ∫⁻ t in Ico (0 : ℝ) T, g (t + d) = ∫⁻ t in Ico (0 : ℝ) T, g t := by
  have h1 : ∫⁻ t in Ioc (0 : ℝ) (0 + T), g t = ∫⁻ t in Ioc d (d + T), g t := by
    refine (isAddFundamentalDomain_Ioc hT 0).setLIntegral_eq (isAddFundamentalDomain_Ioc hT d) g ?_
    rintro ⟨_, k, rfl⟩ x
    have := hg x k
    rw [add_comm] at this
    simpa [AddSubgroup.vadd_def] using this
  rw [Measure.restrict_congr_set Ico_ae_eq_Ioc, ← zero_add T, h1,
    ← lintegral_indicator measurableSet_Ioc, ← lintegral_indicator measurableSet_Ioc,
    ← lintegral_add_right_eq_self ((Ioc d (d + T)).indicator fun t => g t) d]
  refine lintegral_congr fun u => ?_
  simp only [indicator_apply, mem_Ioc]
  refine if_congr ?_ rfl rfl
  constructor <;> rintro ⟨h1, h2⟩ <;> constructor <;> linarith

omit [NeZero N] in
/-- A uniform draw, scaled and shifted. -/
theorem lintegral_unif_affine {g : ℝ → ℝ≥0∞} (hg : Measurable g) {a : ℝ} (ha : 0 < a) (b : ℝ) :
    ∫⁻ u, g (b + a * u) ∂unif = ENNReal.ofReal a⁻¹ * ∫⁻ t in Ico b (b + a), g t := by
  have h1 : ∫⁻ u, g (b + a * u) ∂unif =
      ∫⁻ u, (Ico b (b + a)).indicator g (b + a * u) := by
    rw [unif, ← lintegral_indicator measurableSet_Ico]
    refine lintegral_congr fun u => ?_
    simp only [indicator_apply, mem_Ico]
    refine if_congr ?_ rfl rfl
    constructor
    · rintro ⟨h1, h2⟩; constructor <;> nlinarith
    · rintro ⟨h1, h2⟩; constructor <;> nlinarith
  have hm : Measurable fun t => (Ico b (b + a)).indicator g (b + t) :=
    (hg.indicator measurableSet_Ico).comp (measurable_const.add measurable_id)
  rw [h1, ← lintegral_map (μ := volume) (f := fun t => (Ico b (b + a)).indicator g (b + t))
    (g := fun u => a * u) hm (measurable_const.mul measurable_id),
    Real.map_volume_mul_left ha.ne', lintegral_smul_measure,
    lintegral_add_left_eq_self ((Ico b (b + a)).indicator g) b,
    lintegral_indicator measurableSet_Ico, abs_of_pos (inv_pos.mpr ha)]
  rfl

omit [NeZero N] in
/-- A uniform draw among `q` values. -/
theorem lintegral_floor (g : ℕ → ℝ≥0∞) {q : ℕ} (hq : 0 < q) :
    ∫⁻ u, g ⌊(q : ℝ) * u⌋.toNat ∂unif = (q : ℝ≥0∞)⁻¹ * ∑ r : Fin q, g r := by
  have hq' : (0 : ℝ) < q := by exact_mod_cast hq
  have hm : Measurable fun t : ℝ => g ⌊t⌋.toNat := by
    have h1 : Measurable fun k : ℤ => g k.toNat := measurable_of_countable _
    exact h1.comp Int.measurable_floor
  have h1 := lintegral_unif_affine hm hq' 0
  simp only [zero_add] at h1
  rw [h1, ← sum_lintegral_unif q, ← ENNReal.ofReal_natCast q, ENNReal.ofReal_inv_of_pos hq']
  congr 1
  refine Finset.sum_congr rfl fun r _ => ?_
  have h2 : ∀ᵐ u ∂unif, g ⌊u + ((r : ℕ) : ℝ)⌋.toNat = g r := by
    refine unif_ae.mono fun u hu => ?_
    have : ⌊u + ((r : ℕ) : ℝ)⌋ = ((r : ℕ) : ℤ) := by
      rw [Int.floor_eq_iff]
      push_cast
      exact ⟨by linarith [hu.1], by linarith [hu.2]⟩
    rw [this, Int.toNat_natCast]
  rw [lintegral_congr_ae h2]
  simp

/-! ### The draw of the conditional scheme -/

omit [NeZero N] in
/-- The offset of the strata, for `n w_0 = x`. -/
def condOffset (x U V : ℝ) : ℝ :=
  if x ≤ 1 then x * U
  else if V < (x - ⌊x⌋) * (⌊x⌋ + 1) / x then (x - ⌊x⌋) * U
  else x - ⌊x⌋ + (1 - (x - ⌊x⌋)) * U

omit [NeZero N] in
theorem conditionalUniform_eq {w : ℝ} (hw : 0 < w) (hn : 0 < n) (U V : ℝ) :
    conditionalUniform n (Fl.fin w) U V = Fl.fin (condOffset (n * w) U V) := by
  have hx : (n : ℝ) * w ≠ 0 := by positivity
  rw [conditionalUniform, condOffset]
  simp only [Fl.fin_mul, Fl.floor, Fl.leb_fin, Fl.fin_sub, Fl.fin_add, Fl.fin_div _ _ hx,
    Fl.ltb_fin]
  split_ifs <;> rfl

omit [NeZero N] in
/-- The number of strata in the first arc. -/
def nStrata (x u : ℝ) : ℕ := ⌊x - u⌋₊ + 1

omit [NeZero N] in
/-- The average over the strata in the first arc. -/
def strataMean (g : ℝ → ℝ≥0∞) (x u : ℝ) : ℝ≥0∞ :=
  (nStrata x u : ℝ≥0∞)⁻¹ * ∑ r : Fin (nStrata x u), g (u + (r : ℕ))

omit [NeZero N] in
theorem measurable_strataMean {g : ℝ → ℝ≥0∞} (hg : Measurable g) (x : ℝ) :
    Measurable (strataMean g x) := by
  have h1 : Measurable fun u : ℝ => (u, nStrata x u) := by
    refine measurable_id.prodMk ?_
    have : Measurable fun u : ℝ => ⌊x - u⌋₊ := Nat.measurable_floor.comp (measurable_const.sub measurable_id)
    have h2 : Measurable fun k : ℕ => k + 1 := measurable_of_countable _
    exact h2.comp this
  have h2 : Measurable fun q : ℝ × ℕ => (q.2 : ℝ≥0∞)⁻¹ * ∑ r : Fin q.2, g (q.1 + (r : ℕ)) := by
    refine measurable_from_prod_countable_left fun k => ?_
    have h3 : ∀ d : ℝ, Measurable fun u => g (u + d) :=
      fun d => hg.comp (measurable_id.add measurable_const)
    have h4 : Measurable fun u => ∑ r : Fin k, g (u + (r : ℕ)) :=
      Finset.measurable_sum _ fun r _ => h3 _
    exact h4.const_mul ((k : ℝ≥0∞)⁻¹)
  have h3 : strataMean g x = (fun q : ℝ × ℕ => (q.2 : ℝ≥0∞)⁻¹ * ∑ r : Fin q.2, g (q.1 + (r : ℕ))) ∘
      fun u => (u, nStrata x u) := rfl
  rw [h3]
  exact Measurable.comp h2 h1

omit [NeZero N] in
theorem strataMean_congr {g : ℝ → ℝ≥0∞} {x u : ℝ} {q : ℕ} (hq : nStrata x u = q) :
    strataMean g x u = (q : ℝ≥0∞)⁻¹ * ∑ r : Fin q, g (u + (r : ℕ)) := by
  rw [strataMean, hq]

omit [NeZero N] in
theorem lintegral_Ico_shift {g : ℝ → ℝ≥0∞} (a b d : ℝ) :
    ∫⁻ t in Ico a b, g (t + d) = ∫⁻ t in Ico (a + d) (b + d), g t := by
  rw [← lintegral_indicator measurableSet_Ico, ← lintegral_indicator measurableSet_Ico,
    ← lintegral_add_right_eq_self ((Ico (a + d) (b + d)).indicator fun t => g t) d]
  refine lintegral_congr fun u => ?_
  simp only [indicator_apply, mem_Ico]
  refine if_congr ?_ rfl rfl
  constructor <;> rintro ⟨h1, h2⟩ <;> constructor <;> linarith

omit [NeZero N] in
theorem lintegral_Ico_union {g : ℝ → ℝ≥0∞} {a b c : ℝ} (h1 : a ≤ b) (h2 : b ≤ c) :
    (∫⁻ t in Ico a b, g t) + ∫⁻ t in Ico b c, g t = ∫⁻ t in Ico a c, g t := by
  rw [← Ico_union_Ico_eq_Ico h1 h2, lintegral_union measurableSet_Ico]
  rw [Set.disjoint_left]
  rintro x ⟨_, h1⟩ ⟨h2, _⟩
  linarith

omit [NeZero N] in
/-- The offset plus a uniformly chosen stratum of the first arc is uniform on the first arc. -/
theorem condOffset_law {g : ℝ → ℝ≥0∞} (hg : Measurable g) {x : ℝ} (hx : 0 < x) :
    ∫⁻ U, ∫⁻ V, strataMean g x (condOffset x U V) ∂unif ∂unif =
      ENNReal.ofReal x⁻¹ * ∫⁻ t in Ico 0 x, g t := by
  have hH := measurable_strataMean hg x
  have hgr : ∀ d : ℝ, Measurable fun u => g (u + d) :=
    fun d => hg.comp (measurable_id.add measurable_const)
  have hgs : ∀ k : ℕ, Measurable fun u => ∑ r : Fin k, g (u + (r : ℕ)) :=
    fun k => Finset.measurable_sum _ fun r _ => hgr _
  by_cases hx1 : x ≤ 1
  · simp only [condOffset, if_pos hx1, lintegral_const, measure_univ, mul_one]
    have h1 := lintegral_unif_affine hH hx 0
    simp only [zero_add] at h1
    rw [h1, Measure.restrict_congr_set Ico_ae_eq_Ioc]
    congr 1
    refine setLIntegral_congr_fun measurableSet_Ioc fun u hu => ?_
    have : nStrata x u = 1 := by
      rw [nStrata, Nat.floor_eq_zero.mpr (by linarith [hu.1])]
    rw [strataMean_congr this]
    simp
  push Not at hx1
  obtain ⟨q, hq⟩ : ∃ q : ℕ, (q : ℤ) = ⌊x⌋ := ⟨⌊x⌋.toNat, Int.toNat_of_nonneg (Int.floor_nonneg.mpr hx.le)⟩
  have hqr : ((⌊x⌋ : ℤ) : ℝ) = q := by rw [← hq]; simp
  obtain ⟨ρ, hρ⟩ : ∃ ρ : ℝ, ρ = x - q := ⟨_, rfl⟩
  have hρ0 : 0 ≤ ρ := by rw [hρ, ← hqr]; linarith [Int.floor_le x]
  have hρ1 : ρ < 1 := by rw [hρ, ← hqr]; linarith [Int.lt_floor_add_one x]
  have hq1 : 1 ≤ q := by
    have : (1 : ℤ) ≤ ⌊x⌋ := Int.le_floor.mpr (by push_cast; exact hx1.le)
    omega
  have hq1' : (1 : ℝ) ≤ q := by exact_mod_cast hq1
  obtain ⟨p, hp⟩ : ∃ p : ℝ, p = ρ * (q + 1) / x := ⟨_, rfl⟩
  have hp0 : 0 ≤ p := by rw [hp]; positivity
  have hp' : 1 - p = q * (1 - ρ) / x := by
    rw [hp]
    field_simp
    rw [hρ]; ring
  have hp1 : p ≤ 1 := by
    have : 0 ≤ q * (1 - ρ) / x := by
      have : 0 ≤ 1 - ρ := by linarith
      positivity
    linarith
  have e0 : ∀ U V, condOffset x U V = if V < p then ρ * U else ρ + (1 - ρ) * U := by
    intro U V
    rw [condOffset, if_neg hx1.not_ge, hqr, ← hρ, ← hp]
  simp only [e0]
  have e1 : ∀ U, ∫⁻ V, strataMean g x (if V < p then ρ * U else ρ + (1 - ρ) * U) ∂unif =
      ENNReal.ofReal p * strataMean g x (ρ * U) +
        ENNReal.ofReal (1 - p) * strataMean g x (ρ + (1 - ρ) * U) := by
    intro U
    have hV : ∀ V, strataMean g x (if V < p then ρ * U else ρ + (1 - ρ) * U) =
        (Iio p).indicator (fun _ => strataMean g x (ρ * U)) V +
          (Iio p)ᶜ.indicator (fun _ => strataMean g x (ρ + (1 - ρ) * U)) V := by
      intro V
      by_cases hVp : V < p
      · simp [hVp]
      · simp [hVp, not_lt.mp hVp]
    have hup : unif (Iio p) = ENNReal.ofReal p := by
      have : Iio p ∩ Ico 0 1 = Ico 0 p := by
        ext t
        simp only [mem_inter_iff, mem_Iio, mem_Ico]
        constructor
        · rintro ⟨h1, h2, h3⟩; exact ⟨h2, h1⟩
        · rintro ⟨h1, h2⟩; exact ⟨h2, h1, by linarith⟩
      rw [unif, Measure.restrict_apply measurableSet_Iio, this, Real.volume_Ico, sub_zero]
    simp only [hV]
    rw [lintegral_add_left (measurable_const.indicator measurableSet_Iio),
      lintegral_indicator_const measurableSet_Iio,
      lintegral_indicator_const measurableSet_Iio.compl, prob_compl_eq_one_sub measurableSet_Iio,
      hup, ENNReal.ofReal_sub _ hp0, ENNReal.ofReal_one, mul_comm, mul_comm (strataMean _ _ _)]
  simp only [e1]
  have hm1 : Measurable fun U : ℝ => strataMean g x (ρ * U) :=
    hH.comp (measurable_const.mul measurable_id)
  have hm2 : Measurable fun U : ℝ => strataMean g x (ρ + (1 - ρ) * U) :=
    hH.comp (measurable_const.add (measurable_const.mul measurable_id))
  rw [lintegral_add_left (hm1.const_mul _), lintegral_const_mul _ hm1, lintegral_const_mul _ hm2]
  have e2 : ENNReal.ofReal p * ∫⁻ U, strataMean g x (ρ * U) ∂unif =
      ENNReal.ofReal x⁻¹ * ∑ r : Fin (q + 1), ∫⁻ u in Ico 0 ρ, g (u + (r : ℕ)) := by
    rcases hρ0.eq_or_lt with h0 | h0
    · rw [hp, ← h0]; simp
    have h1 := lintegral_unif_affine hH h0 0
    simp only [zero_add] at h1
    have h2 : ∫⁻ t in Ico 0 ρ, strataMean g x t =
        ((q + 1 : ℕ) : ℝ≥0∞)⁻¹ * ∑ r : Fin (q + 1), ∫⁻ u in Ico 0 ρ, g (u + (r : ℕ)) := by
      rw [← lintegral_finsetSum' _ fun (r : Fin _) _ => (hgr ((r : ℕ) : ℝ)).aemeasurable,
        ← lintegral_const_mul _ (hgs (q + 1))]
      refine setLIntegral_congr_fun measurableSet_Ico fun u hu => ?_
      have : nStrata x u = q + 1 := by
        rw [nStrata]
        congr 1
        rw [Nat.floor_eq_iff (by linarith [hu.1, hu.2, hρ])]
        constructor <;> linarith [hu.1, hu.2, hρ]
      exact strataMean_congr this
    rw [h1, h2, ← mul_assoc, ← mul_assoc, ← ENNReal.ofReal_natCast, ← ENNReal.ofReal_inv_of_pos
      (by positivity), ← ENNReal.ofReal_mul hp0, ← ENNReal.ofReal_mul (by positivity)]
    congr 2
    rw [hp]
    push_cast
    field_simp
  have e3 : ENNReal.ofReal (1 - p) * ∫⁻ U, strataMean g x (ρ + (1 - ρ) * U) ∂unif =
      ENNReal.ofReal x⁻¹ * ∑ r : Fin q, ∫⁻ u in Ico ρ 1, g (u + (r : ℕ)) := by
    have hρ' : 0 < 1 - ρ := by linarith
    have h1 := lintegral_unif_affine hH hρ' ρ
    have h2 : ∫⁻ t in Ico ρ 1, strataMean g x t =
        (q : ℝ≥0∞)⁻¹ * ∑ r : Fin q, ∫⁻ u in Ico ρ 1, g (u + (r : ℕ)) := by
      rw [← lintegral_finsetSum' _ fun (r : Fin _) _ => (hgr ((r : ℕ) : ℝ)).aemeasurable,
        ← lintegral_const_mul _ (hgs q),
        Measure.restrict_congr_set Ioo_ae_eq_Ico.symm]
      refine setLIntegral_congr_fun measurableSet_Ioo fun u hu => ?_
      have : nStrata x u = q := by
        obtain ⟨q', rfl⟩ : ∃ q', q = q' + 1 := ⟨q - 1, by omega⟩
        push_cast at hρ
        rw [nStrata]
        congr 1
        rw [Nat.floor_eq_iff (by push_cast at hq1'; linarith [hu.1, hu.2, hρ])]
        constructor <;> linarith [hu.1, hu.2, hρ]
      exact strataMean_congr this
    rw [show ρ + (1 - ρ) = 1 by ring] at h1
    rw [h1, h2, ← mul_assoc, ← mul_assoc, ← ENNReal.ofReal_natCast, ← ENNReal.ofReal_inv_of_pos
      (by positivity), ← ENNReal.ofReal_mul (by linarith), ← ENNReal.ofReal_mul]
    · congr 2
      rw [hp']
      field_simp
    · have : 0 ≤ 1 - p := by linarith
      positivity
  rw [e2, e3, ← mul_add]
  congr 1
  rw [Fin.sum_univ_castSucc]
  simp only [Fin.val_castSucc, Fin.val_last]
  rw [add_right_comm, ← Finset.sum_add_distrib]
  have h3 : ∀ r : Fin q, (∫⁻ u in Ico 0 ρ, g (u + (r : ℕ))) + ∫⁻ u in Ico ρ 1, g (u + (r : ℕ)) =
      ∫⁻ u, g (u + (r : ℕ)) ∂unif := fun r => by
    rw [lintegral_Ico_union hρ0 hρ1.le, unif]
  simp only [h3]
  rw [sum_lintegral_unif, lintegral_Ico_shift, zero_add, hρ, sub_add_cancel,
    lintegral_Ico_union (by positivity) (by linarith)]

omit [NeZero N] in
theorem measurable_nStrata (x : ℝ) : Measurable (nStrata x) := by
  have : Measurable fun u : ℝ => ⌊x - u⌋₊ := Nat.measurable_floor.comp (measurable_const.sub measurable_id)
  have h2 : Measurable fun k : ℕ => k + 1 := measurable_of_countable _
  exact h2.comp this

omit [NeZero N] in
theorem measurable_condOffset (x : ℝ) : Measurable fun q : ℝ × ℝ => condOffset x q.1 q.2 := by
  have h2 : Measurable fun q : ℝ × ℝ => (x - ⌊x⌋) * q.1 := measurable_fst.const_mul _
  have h3 : Measurable fun q : ℝ × ℝ => x - ⌊x⌋ + (1 - (x - ⌊x⌋)) * q.1 :=
    (measurable_fst.const_mul _).const_add _
  have h4 : MeasurableSet {q : ℝ × ℝ | q.2 < (x - ⌊x⌋) * (⌊x⌋ + 1) / x} :=
    measurable_snd measurableSet_Iio
  unfold condOffset
  by_cases hx : x ≤ 1
  · simp only [if_pos hx]
    exact measurable_fst.const_mul _
  · simp only [if_neg hx]
    exact Measurable.ite h4 h2 h3

omit [NeZero N] in
/-- The point of the first arc selected by the three draws. -/
def condPoint (x : ℝ) (u : Fin 3 → ℝ) : ℝ :=
  condOffset x (u 0) (u 1) + (⌊(nStrata x (condOffset x (u 0) (u 1)) : ℝ) * u 2⌋.toNat : ℕ)

omit [NeZero N] in
theorem measurable_condPoint (x : ℝ) : Measurable (condPoint x) := by
  have h1 : Measurable fun u : Fin 3 → ℝ => (u 0, u 1) :=
    (measurable_pi_apply 0).prodMk (measurable_pi_apply 1)
  have h2 : Measurable fun u : Fin 3 → ℝ => condOffset x (u 0) (u 1) :=
    (measurable_condOffset x).comp h1
  have h3 : Measurable fun u : Fin 3 → ℝ => nStrata x (condOffset x (u 0) (u 1)) :=
    (measurable_nStrata x).comp h2
  have hc : Measurable fun k : ℕ => (k : ℝ) := measurable_of_countable _
  have h4 : Measurable fun u : Fin 3 → ℝ => (nStrata x (condOffset x (u 0) (u 1)) : ℝ) := hc.comp h3
  have h5 : Measurable fun u : Fin 3 → ℝ => (nStrata x (condOffset x (u 0) (u 1)) : ℝ) * u 2 :=
    h4.mul (measurable_pi_apply 2)
  have h6 : Measurable fun k : ℤ => ((k.toNat : ℕ) : ℝ) := measurable_of_countable _
  have h7 : Measurable fun u : Fin 3 → ℝ =>
      ((⌊(nStrata x (condOffset x (u 0) (u 1)) : ℝ) * u 2⌋.toNat : ℕ) : ℝ) :=
    h6.comp (Int.measurable_floor.comp h5)
  exact h2.add h7

omit [NeZero N] in
/-- That point is uniform on the first arc. -/
theorem condPoint_law {g : ℝ → ℝ≥0∞} (hg : Measurable g) {x : ℝ} (hx : 0 < x) :
    ∫⁻ u, g (condPoint x u) ∂(Measure.pi fun _ : Fin 3 => unif) =
      ENNReal.ofReal x⁻¹ * ∫⁻ t in Ico 0 x, g t := by
  have hm : Measurable fun u : Fin 3 → ℝ => g (condPoint x u) := hg.comp (measurable_condPoint x)
  rw [lintegral_pi_cons unif hm, ← condOffset_law hg hx]
  refine lintegral_congr fun U => ?_
  have hm1 : Measurable fun y : Fin 2 → ℝ => g (condPoint x (Fin.cons U y)) :=
    hm.comp (measurable_cons.comp (measurable_const.prodMk measurable_id))
  rw [lintegral_pi_cons unif hm1]
  refine lintegral_congr fun V => ?_
  have hm2 : Measurable fun y : Fin 1 → ℝ => g (condPoint x (Fin.cons U (Fin.cons V y))) :=
    hm1.comp (measurable_cons.comp (measurable_const.prodMk measurable_id))
  rw [lintegral_pi_cons unif hm2]
  have h1 : ∀ W, ∫⁻ y : Fin 0 → ℝ, g (condPoint x (Fin.cons U (Fin.cons V (Fin.cons W y))))
      ∂(Measure.pi fun _ => unif) =
      g (condOffset x U V + (⌊(nStrata x (condOffset x U V) : ℝ) * W⌋.toNat : ℕ)) := by
    intro W
    have h2 : ∀ y : Fin 0 → ℝ, condPoint x (Fin.cons U (Fin.cons V (Fin.cons W y))) =
        condOffset x U V + (⌊(nStrata x (condOffset x U V) : ℝ) * W⌋.toNat : ℕ) := fun y => rfl
    simp only [h2, lintegral_const, measure_univ, mul_one]
  simp only [h1]
  exact lintegral_floor (fun r => g (condOffset x U V + (r : ℕ))) (Nat.succ_pos _)

omit [NeZero N] in
theorem condOffset_mem {x U V : ℝ} (hx : 0 < x) (hU0 : 0 < U) (hU1 : U < 1) (hV : 0 ≤ V) :
    0 < condOffset x U V ∧ condOffset x U V < 1 ∧ condOffset x U V ≤ x := by
  have hfl := Int.floor_le x
  have hfl' := Int.lt_floor_add_one x
  rw [condOffset]
  split_ifs with h1 h2
  · exact ⟨by positivity, by nlinarith, by nlinarith⟩
  · push Not at h1
    have hpos : 0 < x - ⌊x⌋ := by
      rcases (sub_nonneg.mpr hfl).eq_or_lt with h | h
      · rw [← h] at h2; simp at h2; linarith
      · exact h
    exact ⟨by positivity, by nlinarith, by nlinarith⟩
  · push Not at h1
    have hpos : 0 ≤ x - ⌊x⌋ := by linarith
    have hlt : 0 < 1 - (x - ⌊x⌋) := by linarith
    exact ⟨by positivity, by nlinarith, by nlinarith⟩

omit [NeZero N] in
theorem flatnonzero_prefix {C : ℕ} (mask : Fin n → Bool) (hmask : ∀ m, mask m = decide ((m : ℕ) < C))
    (r : Fin n) (hr : (r : ℕ) < C) : flatnonzero mask r = ((r : ℕ) : ℤ) := by
  have hlist : (List.finRange n).filter mask = (List.finRange n).take C := by
    conv_lhs => rw [← List.take_append_drop C (List.finRange n)]
    rw [List.filter_append, List.filter_eq_self.mpr, List.filter_eq_nil_iff.mpr, List.append_nil]
    · intro a ha
      obtain ⟨k, hk, rfl⟩ := List.mem_drop_iff_getElem.mp ha
      rw [hmask]
      simp
    · intro a ha
      obtain ⟨k, hk, rfl⟩ := List.mem_take_iff_getElem.mp ha
      rw [hmask]
      simp at hk ⊢
      omega
  rw [flatnonzero, hlist, List.getElem?_take_of_lt hr, List.getElem?_eq_getElem (by simp)]
  simp

/-- The systematic strata as points of the circle. -/
theorem inverseCdf_arc (pf : Platform) {l : Fin N → Fl} (hl : IsLogits l) {u : ℝ} (h0 : 0 < u)
    (h1 : u < 1) (m : Fin n) :
    inverseCdf pf (systematicUniforms u n) l m = arc pf l ((u + (m : ℕ)) / n) := by
  have hn : (0 : ℝ) < n := by exact_mod_cast m.pos
  have hm : ((m : ℕ) : ℝ) + 1 ≤ n := by exact_mod_cast m.isLt
  have hlo : 0 < (u + (m : ℕ)) / (n : ℝ) := by positivity
  have hhi : (u + (m : ℕ)) / (n : ℝ) < 1 := by rw [div_lt_one hn]; linarith
  rw [arc_of_mem pf l hlo hhi, systematic_idx pf hl h0 h1]
  exact (cell_iff pf hl hlo hhi.le _).mp rfl

/-- Slots may be counted modulo `n`. -/
theorem arc_congr (pf : Platform) (l : Fin N → Fl) (hn : 0 < n) (c t : ℝ) {a b : ℤ}
    (h : a ≡ b [ZMOD n]) : arc pf l (c + (t + a) / n) = arc pf l (c + (t + b) / n) := by
  have hn : (0 : ℝ) < n := by exact_mod_cast hn
  obtain ⟨k, hk⟩ := h.dvd
  have hk' : (b : ℝ) = a + n * k := by
    rw [← sub_eq_iff_eq_add']; exact_mod_cast hk
  rw [hk', ← arc_add_int pf l (c + (t + a) / n) k]
  congr 1
  field_simp
  ring

omit [NeZero N] in
theorem exists_roll {α : Type*} (x : Fin n → α) (s : ℤ) (j : Fin n) :
    ∃ m : Fin n, roll x s j = x m ∧ ((m : ℕ) : ℤ) ≡ (j : ℕ) - s [ZMOD n] := by
  refine ⟨_, rfl, ?_⟩
  have hn : (0 : ℤ) < n := by exact_mod_cast j.pos
  simp only
  rw [Int.toNat_of_nonneg (Int.emod_nonneg _ hn.ne')]
  exact Int.mod_modEq _ _

omit [NeZero N] in
theorem sub_modEq [NeZero n] (j s : Fin n) :
    (((j - s : Fin n) : ℕ) : ℤ) ≡ (j : ℕ) - (s : ℕ) [ZMOD n] := by
  have h1 : (((j - s : Fin n) : ℕ) : ℤ) = ((n : ℤ) - (s : ℕ) + (j : ℕ)) % n := by
    rw [Fin.sub_def]
    push_cast [Nat.cast_sub s.isLt.le]
    rfl
  rw [h1]
  refine (Int.mod_modEq _ _).trans ?_
  rw [Int.modEq_iff_dvd]
  exact ⟨-1, by ring⟩

theorem systematicConditional00_eq (pf : Platform) {l : Fin N → Fl} (hl : IsLogits l)
    [NeZero n] (hn : 0 < n) {U V W : ℝ} (hw : 0 < nw l 0) (hU0 : 0 < U) (hU1 : U < 1) (hV : 0 ≤ V)
    (hW0 : 0 ≤ W) (hW1 : W < 1) {u : ℝ} (hu : u = condOffset (n * nw l 0) U V) (j : Fin n) :
    systematicConditional00 pf U V W l hn j =
      arc pf l ((u + (⌊(nStrata (n * nw l 0) u : ℝ) * W⌋.toNat : ℕ) + (j : ℕ)) / n) := by
  have hn' : (0 : ℝ) < n := by exact_mod_cast hn
  have hx : 0 < n * nw l 0 := by positivity
  obtain ⟨hu0, hu1, hux⟩ := condOffset_mem hx hU0 hU1 hV
  rw [← hu] at hu0 hu1 hux
  have hxn : n * nw l 0 ≤ n := by nlinarith [nw_le_one hl 0]
  have hlin : (fun m : Fin n => (Fl.fin (m : ℕ) + conditionalUniform n (weights l 0) U V) / Fl.fin n) =
      systematicUniforms u n := by
    funext m
    rw [weights_eq hl, conditionalUniform_eq hw hn, ← hu, systematicUniforms, Fl.fin_add, Fl.fin_add,
      add_comm]
  obtain ⟨C, hC⟩ : ∃ C : ℕ, C = nStrata (n * nw l 0) u := ⟨_, rfl⟩
  -- the strata in the first arc are the first `C` ones
  have hzero : ∀ m : Fin n, inverseCdf pf (systematicUniforms u n) l m = 0 ↔ (m : ℕ) < C := by
    intro m
    rw [systematic_idx pf hl hu0 hu1, cum_eq, cumBelow_zero _ 0 rfl, zero_add, div_le_iff₀ hn',
      hC, nStrata, Nat.lt_add_one_iff, Nat.le_floor_iff (by linarith)]
    have h1 : 0 < (u + (m : ℕ)) / (n : ℝ) := by positivity
    constructor
    · rintro ⟨-, h2⟩; linarith
    · intro h2; exact ⟨h1, by linarith⟩
  have hCn : C ≤ n := by
    rw [hC, nStrata]
    have : ⌊n * nw l 0 - u⌋₊ < n := by
      rw [Nat.floor_lt (by linarith)]
      linarith
    omega
  have hC1 : 1 ≤ C := by rw [hC, nStrata]; omega
  have hcard : (Finset.univ.filter fun m : Fin n =>
      inverseCdf pf (systematicUniforms u n) l m = 0).card = C := by
    simp only [hzero]
    rw [Fin.card_filter_val_lt, min_eq_right hCn]
  obtain ⟨r, hr⟩ : ∃ r : ℕ, r = ⌊(C : ℝ) * W⌋.toNat := ⟨_, rfl⟩
  have hrC : r < C := by
    have h1 : (C : ℝ) * W < C := by
      have : (1 : ℝ) ≤ C := by exact_mod_cast hC1
      nlinarith
    have h2 : ⌊(C : ℝ) * W⌋ < C := by
      rw [Int.floor_lt]; exact_mod_cast h1
    have h3 : 0 ≤ ⌊(C : ℝ) * W⌋ := Int.floor_nonneg.mpr (by positivity)
    omega
  have hread : readClamped (flatnonzero fun m : Fin n =>
      decide (inverseCdf pf (systematicUniforms u n) l m = 0)) hn r = (r : ℤ) := by
    rw [readClamped]
    have h1 := flatnonzero_prefix (C := C) (fun m : Fin n =>
      decide (inverseCdf pf (systematicUniforms u n) l m = 0))
      (fun m => by simp only [hzero]) ⟨min r (n - 1), by omega⟩ (by simp only; omega)
    rw [h1]
    simp only
    omega
  have hroll : roll (inverseCdf pf (systematicUniforms u n) l) (-(r : ℤ)) j =
      arc pf l ((u + (r : ℕ) + (j : ℕ)) / n) := by
    obtain ⟨m, hm, hmod⟩ := exists_roll (inverseCdf pf (systematicUniforms u n) l) (-(r : ℤ)) j
    have h1 := arc_congr pf l hn 0 u hmod
    rw [zero_add, zero_add] at h1
    rw [hm, inverseCdf_arc pf hl hu0 hu1]
    push_cast at h1
    rw [h1]
    congr 2
    ring
  rw [systematicConditional00]
  simp only [hlin, hcard]
  rw [← hC, ← hr]
  split_ifs with h1
  · have hr0 : r = 0 := by omega
    rw [hr0, Nat.cast_zero, add_zero, inverseCdf_arc pf hl hu0 hu1]
  · rw [hread]
    exact hroll

end

end Cuthbert.Resampling
