import Verif.Model.RoundedResampling
import Verif.Lemmas.Rounding
import Verif.Lemmas.Resampling
import Mathlib.MeasureTheory.Measure.Lebesgue.Basic

/-!
# Properties: resampling with rounded arithmetic (C127)
-/

namespace Cuthbert.Resampling
open Cuthbert MeasureTheory Set

noncomputable section

variable {N n : ℕ}

/-- The rounded sum of the weights up to `i`. -/
def roundedSum (fl : ℝ → ℝ) (w : Fin N → ℝ) : (j : ℕ) → j < N → ℝ
  | 0, h => w ⟨0, h⟩
  | j + 1, h => fl (roundedSum fl w j (Nat.lt_of_succ_lt h) + w ⟨j + 1, h⟩)

theorem advanceRounded_spec (fl : ℝ → ℝ) (w : Fin N → ℝ) (u : ℝ) : ∀ (k j : ℕ) (hj : j < N), N - j = k →
    ∃ j', ∃ hj' : j' < N, advanceRounded fl w u j (roundedSum fl w j hj) = (j', roundedSum fl w j' hj') ∧
      j ≤ j' ∧ (∀ i (hi : i < N), j ≤ i → i < j' → roundedSum fl w i hi < u) ∧
      (u ≤ roundedSum fl w j' hj' ∨ j' + 1 = N) := by
  intro k
  induction k with
  | zero => intro j hj h; omega
  | succ k ih =>
    intro j hj h
    rw [advanceRounded]
    by_cases hc : roundedSum fl w j hj < u ∧ j + 1 < N
    · rw [dif_pos hc]
      obtain ⟨j', hj', h1, h2, h3, h4⟩ := ih (j + 1) hc.2 (by omega)
      refine ⟨j', hj', h1, by omega, fun i hi h5 h6 => ?_, h4⟩
      rcases h5.eq_or_lt with rfl | h7
      · exact hc.1
      · exact h3 i hi h7 h6
    · rw [dif_neg hc]
      refine ⟨j, hj, rfl, le_rfl, fun i _ h5 h6 => by omega, ?_⟩
      rcases not_and_or.mp hc with h5 | h5
      · exact .inl (not_lt.mp h5)
      · exact .inr (by omega)

variable [NeZero N]

theorem numbaStateRounded_spec (fl : ℝ → ℝ) (w : Fin N → ℝ) (u : Fin n → ℝ) (hu : Monotone u) :
    ∀ (m : ℕ) (hm : m ≤ n), ∃ j, ∃ hj : j < N, numbaStateRounded fl u w m hm = (j, roundedSum fl w j hj) ∧
      (∀ k (hk : k < n), m ≤ k + 1 → ∀ i (hi : i < N), i < j → roundedSum fl w i hi < u ⟨k, hk⟩) ∧
      ∀ k (hk : k < n), m = k + 1 → (u ⟨k, hk⟩ ≤ roundedSum fl w j hj ∨ j + 1 = N) := by
  intro m
  induction m with
  | zero =>
    intro hm
    exact ⟨0, NeZero.pos N, rfl, fun k _ _ i _ hi => by omega, fun k _ h => by omega⟩
  | succ m ih =>
    intro hm
    obtain ⟨j, hj, h1, h2, -⟩ := ih (Nat.le_of_succ_le hm)
    obtain ⟨j', hj', h3, h4, h5, h6⟩ := advanceRounded_spec fl w (u ⟨m, hm⟩) _ j hj rfl
    refine ⟨j', hj', ?_, fun k hk hmk i hi hij => ?_, fun k hk hmk => ?_⟩
    · rw [numbaStateRounded, h1]
      exact h3
    · have hmono : u ⟨m, hm⟩ ≤ u ⟨k, hk⟩ := hu (by rw [Fin.le_def]; exact Nat.le_of_succ_le_succ hmk)
      rcases lt_or_ge i j with h7 | h7
      · exact h2 k hk (by omega) i hi h7
      · exact (h5 i hi h7 hij).trans_le hmono
    · obtain rfl : m = k := by omega
      exact h6

/-- With any rounding and any weights the index is the first one whose rounded cumulative sum reaches the draw, or the
last index. -/
theorem inverseCdfRounded_spec (fl : ℝ → ℝ) (w : Fin N → ℝ) (u : Fin n → ℝ) (hu : Monotone u) (m : Fin n) :
    (∀ j < inverseCdfRounded fl u w m, roundedSum fl w j j.isLt < u m) ∧
      (u m ≤ roundedSum fl w _ (inverseCdfRounded fl u w m).isLt ∨ (inverseCdfRounded fl u w m : ℕ) + 1 = N) := by
  obtain ⟨j, hj, h1, h2, h3⟩ := numbaStateRounded_spec fl w u hu (m + 1) m.isLt
  have h4 : inverseCdfRounded fl u w m = ⟨j, hj⟩ := by
    rw [inverseCdfRounded, h1]
    exact clipIdx_of_lt hj
  rw [h4]
  exact ⟨fun i hi => h2 m m.isLt le_rfl i i.isLt hi, h3 m m.isLt rfl⟩

omit [NeZero N] in
theorem roundedSum_id (w : Fin N → ℝ) : ∀ (j : ℕ) (hj : j < N), roundedSum id w j hj = cum w ⟨j, hj⟩ := by
  intro j
  induction j with
  | zero => intro hj; rw [roundedSum, cum_eq, cumBelow_zero _ _ rfl, zero_add]
  | succ j ih => intro hj; rw [roundedSum, ih, cum_eq w ⟨j + 1, hj⟩, cumBelow_succ w ⟨j, _⟩ ⟨j + 1, hj⟩ rfl, id]

/-- Without rounding this is the model of `Model/Resampling.lean`. -/
theorem inverseCdfRounded_id {l : Fin N → Fl} (hl : IsLogits l) (u : Fin n → ℝ) (hu : Monotone u) :
    inverseCdfRounded id u (nw l) = inverseCdf .cpu (fun m => Fl.fin (u m)) l := by
  funext m
  obtain ⟨h1, h2⟩ := inverseCdfRounded_spec id (nw l) u hu m
  refine IsQuantile.unique (w := nw l) (u := u m) ⟨fun j hj => ?_, ?_⟩ (inverseCdf_isQuantile .cpu hl u hu m)
  · rw [← roundedSum_id]
    exact h1 j hj
  · rw [roundedSum_id] at h2
    exact h2

variable {fl : ℝ → ℝ} {ε : ℝ} {w : Fin N → ℝ}

omit [NeZero N] in
theorem roundedSum_float (h : Rounding fl ε) (hw : ∀ i, fl (w i) = w i) (j : ℕ) (hj : j < N) :
    fl (roundedSum fl w j hj) = roundedSum fl w j hj := by
  cases j with
  | zero => exact hw _
  | succ j => exact h.idem _

omit [NeZero N] in
theorem roundedSum_succ_ge (h : Rounding fl ε) (hw0 : ∀ i, 0 ≤ w i) (hw : ∀ i, fl (w i) = w i) (j : ℕ) (hj : j + 1 < N) :
    roundedSum fl w j (Nat.lt_of_succ_lt hj) ≤ roundedSum fl w (j + 1) hj := by
  rw [roundedSum]
  refine (roundedSum_float h hw j (Nat.lt_of_succ_lt hj)).symm.le.trans (h.mono ?_)
  linarith [hw0 ⟨j + 1, hj⟩]

omit [NeZero N] in
theorem roundedSum_nonneg (h : Rounding fl ε) (hw0 : ∀ i, 0 ≤ w i) (hw : ∀ i, fl (w i) = w i) : ∀ (j : ℕ) (hj : j < N),
    0 ≤ roundedSum fl w j hj
  | 0, _ => hw0 _
  | j + 1, hj => (roundedSum_nonneg h hw0 hw j _).trans (roundedSum_succ_ge h hw0 hw j hj)

omit [NeZero N] in
theorem roundedSum_bounds (h : Rounding fl ε) (hw0 : ∀ i, 0 ≤ w i) (hw : ∀ i, fl (w i) = w i) : ∀ (j : ℕ) (hj : j < N),
    (1 - ε) ^ j * cum w ⟨j, hj⟩ ≤ roundedSum fl w j hj ∧ roundedSum fl w j hj ≤ (1 + ε) ^ j * cum w ⟨j, hj⟩ := by
  have he := h.eps_nonneg
  have he1 := h.eps_le
  intro j
  induction j with
  | zero =>
    intro hj
    rw [roundedSum, cum_eq, cumBelow_zero _ _ rfl]
    simp
  | succ j ih =>
    intro hj
    obtain ⟨h1, h2⟩ := ih (Nat.lt_of_succ_lt hj)
    have h3 := h.add_error _ _ (roundedSum_float h hw j (Nat.lt_of_succ_lt hj)) (hw ⟨j + 1, hj⟩)
    have hs := roundedSum_nonneg h hw0 hw j (Nat.lt_of_succ_lt hj)
    have hw1 := hw0 ⟨j + 1, hj⟩
    have hc : cum w ⟨j + 1, hj⟩ = cum w ⟨j, Nat.lt_of_succ_lt hj⟩ + w ⟨j + 1, hj⟩ := by
      rw [cum_eq, cumBelow_succ w ⟨j, Nat.lt_of_succ_lt hj⟩ ⟨j + 1, hj⟩ rfl]
    rw [abs_of_nonneg (a := roundedSum fl w j _ + w ⟨j + 1, hj⟩) (by linarith), abs_le] at h3
    rw [roundedSum, hc]
    have hp1 : (1 : ℝ) ≤ (1 + ε) ^ j := one_le_pow₀ (by linarith)
    have hp2 : (1 - ε) ^ j ≤ 1 := pow_le_one₀ (by linarith) (by linarith)
    have hp3 : 0 ≤ (1 - ε) ^ j := pow_nonneg (by linarith) j
    constructor
    · have h4 : (1 - ε) ^ j * (cum w ⟨j, Nat.lt_of_succ_lt hj⟩ + w ⟨j + 1, hj⟩) ≤
          roundedSum fl w j (Nat.lt_of_succ_lt hj) + w ⟨j + 1, hj⟩ := by
        nlinarith
      rw [pow_succ]
      nlinarith
    · have h4 : roundedSum fl w j (Nat.lt_of_succ_lt hj) + w ⟨j + 1, hj⟩ ≤
          (1 + ε) ^ j * (cum w ⟨j, Nat.lt_of_succ_lt hj⟩ + w ⟨j + 1, hj⟩) := by
        nlinarith
      rw [pow_succ]
      nlinarith

omit [NeZero N] in
/-- The rounded cumulative weights are within `(1 + ε)^N - 1` of the exact ones. -/
theorem roundedSum_error (h : Rounding fl ε) (hw0 : ∀ i, 0 ≤ w i) (hw : ∀ i, fl (w i) = w i) (hsum : ∑ i, w i = 1)
    (i : Fin N) : |roundedSum fl w i i.isLt - cum w i| ≤ (1 + ε) ^ N - 1 := by
  have he := h.eps_nonneg
  have he1 := h.eps_le
  obtain ⟨h1, h2⟩ := roundedSum_bounds h hw0 hw i i.isLt
  have hc1 : cum w i ≤ 1 := (cum_le_sum hw0 i).trans hsum.le
  have hc0 : 0 ≤ cum w i := by
    rw [cum_eq]
    exact add_nonneg (cumBelow_nonneg hw0 i) (hw0 i)
  have h3 : (1 + ε) ^ (i : ℕ) ≤ (1 + ε) ^ N := pow_le_pow_right₀ (by linarith) i.isLt.le
  have h4 : (1 : ℝ) ≤ (1 + ε) ^ (i : ℕ) := one_le_pow₀ (by linarith)
  have h5 : 1 + (i : ℕ) * ε ≤ (1 + ε) ^ (i : ℕ) := one_add_mul_le_pow (by linarith) _
  have h6 : 1 + (i : ℕ) * (-ε) ≤ (1 + -ε) ^ (i : ℕ) := one_add_mul_le_pow (by linarith) _
  rw [← sub_eq_add_neg] at h6
  rw [abs_le]
  constructor <;> nlinarith

/-- C127: with rounded sums every draw gets the index of a draw that differs by at most `(1 + ε)^N - 1` (about `N ε`): the
exact cumulative weight of the index is at least the draw, and that of every smaller index is less than the draw, up to
this error. -/
theorem rounded_index_accurate (h : Rounding fl ε) (hw0 : ∀ i, 0 ≤ w i) (hw : ∀ i, fl (w i) = w i) (hsum : ∑ i, w i = 1)
    (u : Fin n → ℝ) (hu : Monotone u) (hu1 : ∀ m, u m ≤ 1) (m : Fin n) :
    (∀ j < inverseCdfRounded fl u w m, cum w j < u m + ((1 + ε) ^ N - 1)) ∧
      u m ≤ cum w (inverseCdfRounded fl u w m) + ((1 + ε) ^ N - 1) := by
  obtain ⟨h1, h2⟩ := inverseCdfRounded_spec fl w u hu m
  have herr := fun i => abs_le.mp (roundedSum_error h hw0 hw hsum i)
  refine ⟨fun j hj => by linarith [h1 j hj, (herr j).1], ?_⟩
  rcases h2 with h3 | h3
  · linarith [(herr (inverseCdfRounded fl u w m)).2]
  · rw [cum_last w _ h3, hsum]
    have : (1 : ℝ) ≤ (1 + ε) ^ N := one_le_pow₀ (by linarith [h.eps_nonneg])
    linarith [hu1 m]

/-- C127: with rounded sums the indices are sorted. -/
theorem rounded_index_monotone (fl : ℝ → ℝ) (w : Fin N → ℝ) (u : Fin n → ℝ) (hu : Monotone u) :
    Monotone (inverseCdfRounded fl u w) := by
  intro m m' hmm
  by_contra hc
  have hc := not_le.mp hc
  have h1 := (inverseCdfRounded_spec fl w u hu m).1 _ hc
  rcases (inverseCdfRounded_spec fl w u hu m').2 with h2 | h2
  · exact absurd (hu hmm) (not_le.mpr (h1.trans_le' h2))
  · rw [Fin.lt_def] at hc
    have := (inverseCdfRounded fl u w m).isLt
    omega

/-- C127: a particle of weight zero is not drawn, unless it is the last one. -/
theorem rounded_zero_weight_partial (h : Rounding fl ε) (hw : ∀ i, fl (w i) = w i) (u : Fin n → ℝ) (hu : Monotone u)
    (m : Fin n) (h0 : 0 < u m) (hm : w (inverseCdfRounded fl u w m) = 0) : (inverseCdfRounded fl u w m : ℕ) + 1 = N := by
  obtain ⟨h1, h2⟩ := inverseCdfRounded_spec fl w u hu m
  refine h2.resolve_left fun h3 => ?_
  obtain ⟨i, hi⟩ : ∃ i, i = inverseCdfRounded fl u w m := ⟨_, rfl⟩
  rw [← hi] at h1 h3 hm
  obtain ⟨i, hlt⟩ := i
  cases i with
  | zero =>
    rw [roundedSum, hm] at h3
    linarith
  | succ j =>
    rw [roundedSum, hm, add_zero, roundedSum_float h hw] at h3
    exact absurd (h1 ⟨j, Nat.lt_of_succ_lt hlt⟩ (by simp [Fin.lt_def])) (not_lt.mpr h3)

/-- The probability that a uniform draw gets index `i`. -/
def drawProb (fl : ℝ → ℝ) (w : Fin N → ℝ) (i : Fin N) : ℝ :=
  (volume {u : ℝ | u ∈ Ico 0 1 ∧ inverseCdfRounded fl (fun _ : Fin 1 => u) w 0 = i}).toReal

/-- The draws with index `i` are those between two bounds. -/
theorem draws_eq (h : Rounding fl ε) (hw0 : ∀ i, 0 ≤ w i) (hw : ∀ i, fl (w i) = w i) (i : Fin N) :
    ∃ lo hi : ℝ, (((i : ℕ) = 0 ∧ lo = -1) ∨ ∃ j : Fin N, (j : ℕ) + 1 = i ∧ lo = roundedSum fl w j j.isLt) ∧
      (((i : ℕ) + 1 = N ∧ hi = 1) ∨ ((i : ℕ) + 1 < N ∧ hi = roundedSum fl w i i.isLt)) ∧
      {u : ℝ | u ∈ Ico 0 1 ∧ inverseCdfRounded fl (fun _ : Fin 1 => u) w 0 = i} = Ico 0 1 ∩ Ioc lo hi := by
  have hspec := fun u : ℝ => inverseCdfRounded_spec fl w (fun _ : Fin 1 => u) (fun _ _ _ => le_rfl) 0
  have hmono : ∀ a b (ha : a < N) (hb : b < N), a ≤ b → roundedSum fl w a ha ≤ roundedSum fl w b hb := by
    intro a b ha hb hab
    induction b, hab using Nat.le_induction with
    | base => exact le_rfl
    | succ b hab ih => exact (ih (Nat.lt_of_succ_lt hb)).trans (roundedSum_succ_ge h hw0 hw b hb)
  -- the index is determined by the two bounds
  have hiff : ∀ u : ℝ, inverseCdfRounded fl (fun _ : Fin 1 => u) w 0 = i ↔
      (∀ j < i, roundedSum fl w j j.isLt < u) ∧ (u ≤ roundedSum fl w i i.isLt ∨ (i : ℕ) + 1 = N) := by
    intro u
    constructor
    · rintro rfl
      exact hspec u
    · rintro ⟨h1, h2⟩
      obtain ⟨h3, h4⟩ := hspec u
      rcases lt_trichotomy (inverseCdfRounded fl (fun _ : Fin 1 => u) w 0) i with h5 | h5 | h5
      · rcases h4 with h6 | h6
        · exact absurd (h1 _ h5) (not_lt.mpr h6)
        · rw [Fin.lt_def] at h5
          have := i.isLt
          omega
      · exact h5
      · rcases h2 with h6 | h6
        · exact absurd (h3 _ h5) (not_lt.mpr h6)
        · rw [Fin.lt_def] at h5
          have := (inverseCdfRounded fl (fun _ : Fin 1 => u) w 0).isLt
          omega
  obtain ⟨lo, hlo, hlo'⟩ : ∃ lo : ℝ,
      (((i : ℕ) = 0 ∧ lo = -1) ∨ ∃ j : Fin N, (j : ℕ) + 1 = i ∧ lo = roundedSum fl w j j.isLt) ∧
      ∀ u : ℝ, 0 ≤ u → ((∀ j < i, roundedSum fl w j j.isLt < u) ↔ lo < u) := by
    obtain ⟨i, hi⟩ := i
    cases i with
    | zero => exact ⟨-1, .inl ⟨rfl, rfl⟩, fun u hu => ⟨fun _ => by linarith, fun _ j hj => by simp at hj⟩⟩
    | succ i =>
      refine ⟨_, .inr ⟨⟨i, Nat.lt_of_succ_lt hi⟩, rfl, rfl⟩, fun u _ => ⟨fun hj => hj _ (by simp [Fin.lt_def]),
        fun hu j hj => (hmono j i j.isLt _ ?_).trans_lt hu⟩⟩
      rw [Fin.lt_def] at hj
      exact Nat.lt_succ_iff.mp hj
  obtain ⟨hi, hhi, hhi'⟩ : ∃ hi : ℝ,
      (((i : ℕ) + 1 = N ∧ hi = 1) ∨ ((i : ℕ) + 1 < N ∧ hi = roundedSum fl w i i.isLt)) ∧
      ∀ u : ℝ, u < 1 → (u ≤ roundedSum fl w i i.isLt ∨ (i : ℕ) + 1 = N ↔ u ≤ hi) := by
    rcases (Nat.succ_le_of_lt i.isLt).eq_or_lt with h1 | h1
    · exact ⟨1, .inl ⟨h1, rfl⟩, fun u hu => ⟨fun _ => hu.le, fun _ => .inr h1⟩⟩
    · exact ⟨_, .inr ⟨h1, rfl⟩, fun u _ => ⟨fun h2 => h2.resolve_right (by omega), .inl⟩⟩
  refine ⟨lo, hi, hlo, hhi, ?_⟩
  ext u
  simp only [Set.mem_ofPred_eq, mem_inter_iff, mem_Ioc]
  refine and_congr_right fun hu => ?_
  rw [hiff, hlo' u hu.1, hhi' u hu.2]

theorem volume_Ico_inter_Ioc (lo hi : ℝ) :
    (volume (Ico (0 : ℝ) 1 ∩ Ioc lo hi)).toReal = max (min 1 hi - max 0 lo) 0 := by
  have h1 : (Ico (0 : ℝ) 1 ∩ Ioc lo hi : Set ℝ) =ᵐ[volume] (Ioc (0 : ℝ) 1 ∩ Ioc lo hi : Set ℝ) :=
    Ico_ae_eq_Ioc.inter (ae_eq_refl _)
  rw [measure_congr h1, Ioc_inter_Ioc, Real.volume_Ioc, ENNReal.toReal_ofReal']

/-- C127: with rounded sums a uniform draw gets index `i` with probability `w_i`, up to `2 ((1 + ε)^N - 1)`. -/
theorem rounded_probability (h : Rounding fl ε) (hw0 : ∀ i, 0 ≤ w i) (hw : ∀ i, fl (w i) = w i) (hsum : ∑ i, w i = 1)
    (i : Fin N) : |drawProb fl w i - w i| ≤ 2 * ((1 + ε) ^ N - 1) := by
  obtain ⟨lo, hi, hlo, hhi, heq⟩ := draws_eq h hw0 hw i
  rw [drawProb, heq, volume_Ico_inter_Ioc]
  have herr := fun j => abs_le.mp (roundedSum_error h hw0 hw hsum j)
  have hδ : (1 : ℝ) ≤ (1 + ε) ^ N := one_le_pow₀ (by linarith [h.eps_nonneg])
  obtain ⟨δ, hδ'⟩ : ∃ δ, δ = (1 + ε) ^ N - 1 := ⟨_, rfl⟩
  rw [← hδ'] at herr ⊢
  have hδ0 : 0 ≤ δ := by linarith
  have hc := cum_eq w i
  have hb0 := cumBelow_nonneg hw0 i
  have hc1 : cum w i ≤ 1 := (cum_le_sum hw0 i).trans hsum.le
  have hwi := hw0 i
  have h1 : |max 0 lo - cumBelow w i| ≤ δ := by
    rcases hlo with ⟨h2, rfl⟩ | ⟨j, hj, rfl⟩
    · rw [cumBelow_zero _ _ h2]
      simpa using hδ0
    · rw [cumBelow_succ w j i hj.symm, max_eq_right (roundedSum_nonneg h hw0 hw j j.isLt)]
      exact abs_le.mpr (herr j)
  have h2 : |min 1 hi - cum w i| ≤ δ := by
    rcases hhi with ⟨h3, rfl⟩ | ⟨-, rfl⟩
    · rw [cum_last w i h3, hsum]
      simpa using hδ0
    · rw [abs_le]
      have := herr i
      constructor
      · rcases min_choice 1 (roundedSum fl w i i.isLt) with h3 | h3 <;> rw [h3] <;> linarith
      · linarith [min_le_right 1 (roundedSum fl w i i.isLt)]
  rw [abs_le] at h1 h2 ⊢
  constructor
  · linarith [le_max_left (min 1 hi - max 0 lo) 0]
  · rcases max_choice (min 1 hi - max 0 lo) 0 with h3 | h3 <;> rw [h3] <;> linarith

/-- Weights that sum to one: `1 / 2`, then `4 k` weights below the resolution of `1 / 2`, then the rest, then zero. -/
def stuckWeights (p k : ℕ) : Fin (4 * k + 3) → ℝ := fun i =>
  if (i : ℕ) = 0 then 1 / 2 else if (i : ℕ) ≤ 4 * k then 2 ^ (-(p : ℤ) - 2) else
    if (i : ℕ) = 4 * k + 1 then 1 / 2 - k * 2 ^ (-(p : ℤ)) else 0

theorem stuck_quarter (p : ℕ) : (2 : ℝ) ^ (-(p : ℤ) - 2) = 2 ^ (-(p : ℤ)) / 4 := by
  rw [zpow_sub₀ two_ne_zero]
  norm_num

theorem stuckWeights_sum (p k : ℕ) : ∑ i, stuckWeights p k i = 1 := by
  have h1 := Fin.sum_univ_eq_sum_range (fun i : ℕ => if i = 0 then (1 : ℝ) / 2 else if i ≤ 4 * k then
    2 ^ (-(p : ℤ) - 2) else if i = 4 * k + 1 then 1 / 2 - k * 2 ^ (-(p : ℤ)) else 0) (4 * k + 3)
  have h2 : ∑ i, stuckWeights p k i = ∑ i ∈ Finset.range (4 * k + 3), (if i = 0 then (1 : ℝ) / 2 else if i ≤ 4 * k then
    2 ^ (-(p : ℤ) - 2) else if i = 4 * k + 1 then 1 / 2 - k * 2 ^ (-(p : ℤ)) else 0) := h1
  rw [h2, Finset.sum_range_succ, Finset.sum_range_succ, Finset.sum_range_succ']
  have h3 : ∑ i ∈ Finset.range (4 * k), (if i + 1 = 0 then (1 : ℝ) / 2 else if i + 1 ≤ 4 * k then
      2 ^ (-(p : ℤ) - 2) else if i + 1 = 4 * k + 1 then 1 / 2 - k * 2 ^ (-(p : ℤ)) else 0) =
      ∑ _i ∈ Finset.range (4 * k), 2 ^ (-(p : ℤ)) / 4 := by
    refine Finset.sum_congr rfl fun i hi => ?_
    rw [if_neg (by omega), if_pos (by have := Finset.mem_range.mp hi; omega), stuck_quarter]
  rw [h3, Finset.sum_const, Finset.card_range, nsmul_eq_mul]
  simp
  ring

variable {p k : ℕ}

theorem stuckWeights_nonneg (hp : 0 < p) (hk : k ≤ 2 ^ (p - 1)) (i : Fin (4 * k + 3)) : 0 ≤ stuckWeights p k i := by
  have h1 : (k : ℝ) * 2 ^ (-(p : ℤ)) ≤ 1 / 2 := by
    have h2 : (k : ℝ) ≤ 2 ^ (p - 1) := by exact_mod_cast hk
    have h3 : (2 : ℝ) ^ (p - 1) * 2 ^ (-(p : ℤ)) = 1 / 2 := by
      rw [← zpow_natCast, ← zpow_add₀ two_ne_zero, show ((p - 1 : ℕ) : ℤ) + -(p : ℤ) = -1 by omega]
      norm_num
    rw [← h3]
    gcongr
  rw [stuckWeights]
  split_ifs
  · norm_num
  · positivity
  · linarith
  · exact le_rfl

theorem stuckWeights_float (hp : 0 < p) (hk : k ≤ 2 ^ (p - 1)) (i : Fin (4 * k + 3)) : IsFloat p (stuckWeights p k i) := by
  have h1 : (1 : ℤ) < 2 ^ p := one_lt_pow₀ (by norm_num) hp.ne'
  rw [stuckWeights]
  split_ifs
  · exact ⟨1, -1, by simpa using h1, by norm_num⟩
  · exact ⟨1, -(p : ℤ) - 2, by simpa using h1, by norm_num⟩
  · refine ⟨2 ^ (p - 1) - k, -(p : ℤ), ?_, ?_⟩
    · have h2 : (k : ℤ) ≤ 2 ^ (p - 1) := by exact_mod_cast hk
      have h3 : (2 : ℤ) ^ (p - 1) < 2 ^ p := pow_lt_pow_right₀ (by norm_num) (by omega)
      rw [abs_of_nonneg (by linarith)]
      have : (0 : ℤ) ≤ k := by positivity
      linarith
    · have h3 : (2 : ℝ) ^ (p - 1) * 2 ^ (-(p : ℤ)) = 1 / 2 := by
        rw [← zpow_natCast, ← zpow_add₀ two_ne_zero, show ((p - 1 : ℕ) : ℤ) + -(p : ℤ) = -1 by omega]
        norm_num
      push_cast
      rw [sub_mul, h3]
  · exact isFloat_zero p

/-- The sum does not move over the small weights. -/
theorem stuck_sum (hp : 0 < p) (h : RoundsToNearest p fl) : ∀ (j : ℕ) (hj : j < 4 * k + 3), j ≤ 4 * k →
    roundedSum fl (stuckWeights p k) j hj = 1 / 2
  | 0, _, _ => rfl
  | j + 1, hj, hjk => by
    rw [roundedSum, stuck_sum hp h j _ (by omega), stuckWeights]
    simp only [Nat.add_eq_zero_iff, one_ne_zero, and_false, if_false, hjk, if_true]
    exact h.absorbs hp

/-- C127 (the full claim is false): for every precision `p` and every `k ≤ 2^(p - 1)` there are `4 k + 3` weights, exactly
representable and summing to one, of which the last is zero and is nevertheless drawn with probability `k / 2^p`. In
single precision, `p = 24`, a particle of weight zero is drawn with probability `1/2` out of 33 million particles, and with
probability `1.5 %` out of one million. -/
theorem rounded_draws_zero_weight (hp : 0 < p) (hk0 : 0 < k) (hk : k ≤ 2 ^ (p - 1)) (h : RoundsToNearest p fl) :
    (∀ i, IsFloat p (stuckWeights p k i)) ∧ (∀ i, 0 ≤ stuckWeights p k i) ∧ ∑ i, stuckWeights p k i = 1 ∧
      stuckWeights p k (Fin.last _) = 0 ∧ drawProb fl (stuckWeights p k) (Fin.last _) = k / 2 ^ p := by
  have hw0 := stuckWeights_nonneg hp hk
  have hfl := stuckWeights_float hp hk
  refine ⟨hfl, hw0, stuckWeights_sum p k, by simp [stuckWeights], ?_⟩
  obtain ⟨lo, hi, hlo, hhi, heq⟩ := draws_eq (h.rounding hp) hw0 (fun i => h.of_float (hfl i)) (Fin.last (4 * k + 2))
  rw [drawProb, heq, volume_Ico_inter_Ioc]
  have hhi1 : hi = 1 := by
    rcases hhi with ⟨-, h1⟩ | ⟨h1, -⟩
    · exact h1
    · simp at h1
  have hq : (2 : ℝ) ^ (-(p : ℤ)) = (2 ^ p)⁻¹ := by rw [zpow_neg, zpow_natCast]
  have hlo1 : lo = 1 - k * 2 ^ (-(p : ℤ)) := by
    rcases hlo with ⟨h1, -⟩ | ⟨⟨j, hj⟩, h1, h2⟩
    · simp at h1
    · obtain rfl : j = 4 * k + 1 := by simpa using h1
      rw [h2, roundedSum, stuck_sum hp h (4 * k) _ le_rfl, stuckWeights]
      simp only [Nat.add_eq_zero_iff, one_ne_zero, and_false, if_false, if_true,
        if_neg (show ¬(4 * k + 1 ≤ 4 * k) by omega)]
      rw [show (1 : ℝ) / 2 + (1 / 2 - k * 2 ^ (-(p : ℤ))) = 1 - k * 2 ^ (-(p : ℤ)) by ring]
      refine h.of_float ⟨2 ^ p - k, -(p : ℤ), ?_, ?_⟩
      · have h3 : (k : ℤ) ≤ 2 ^ (p - 1) := by exact_mod_cast hk
        have h4 : (2 : ℤ) ^ (p - 1) < 2 ^ p := pow_lt_pow_right₀ (by norm_num) (by omega)
        have h5 : (0 : ℤ) < k := by exact_mod_cast hk0
        rw [abs_of_nonneg (by linarith)]
        linarith
      · push_cast
        rw [hq, sub_mul, mul_inv_cancel₀ (by positivity)]
  have h6 : (k : ℝ) * 2 ^ (-(p : ℤ)) ≤ 1 := by
    have h7 : (k : ℝ) ≤ 2 ^ p := by
      exact_mod_cast hk.trans (pow_le_pow_right₀ (by norm_num) (by omega))
    rw [hq, ← div_eq_mul_inv, div_le_one (by positivity)]
    exact h7
  have h8 : 0 ≤ (k : ℝ) * 2 ^ (-(p : ℤ)) := by positivity
  rw [hhi1, hlo1, min_self, max_eq_right (a := 0) (by linarith), max_eq_left (by linarith), hq]
  ring

/-- The hypotheses of C127 are met: rounding to nearest with 24 bits exists, it is a rounding with `ε = 2^(-24)`, and
one million particles of equal weight `2^(-20)` have representable weights, so each of them is drawn with a probability
that differs from its weight by at most `2 ((1 + 2^(-24))^(2^20) - 1)`. -/
example : ∃ fl : ℝ → ℝ, RoundsToNearest 24 fl ∧ ∀ i : Fin (2 ^ 20),
    |drawProb fl (fun _ : Fin (2 ^ 20) => (2 : ℝ) ^ (-20 : ℤ)) i - 2 ^ (-20 : ℤ)| ≤
      2 * ((1 + 2 ^ (-(24 : ℕ) : ℤ)) ^ (2 ^ 20) - 1) := by
  refine ⟨roundBits 24, roundBits_nearest (by norm_num), fun i => ?_⟩
  have h := roundBits_nearest (p := 24) (by norm_num)
  refine rounded_probability (h.rounding (by norm_num)) (fun _ => by positivity)
    (fun _ => h.of_float ⟨1, -20, by norm_num, by norm_num⟩) ?_ i
  rw [Finset.sum_const, Finset.card_univ, Fintype.card_fin, nsmul_eq_mul]
  norm_num

end

end Cuthbert.Resampling
