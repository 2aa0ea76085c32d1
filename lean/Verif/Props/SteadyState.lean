import Mathlib.Algebra.Order.Chebyshev
import Verif.Props.KalmanForgetting
import Verif.Spec.SteadyState

/-!
# The Kalman filter of a time-invariant model reaches a steady state (C110)
-/

namespace Cuthbert.Kalman
open Matrix Cuthbert Cuthbert.Spec Filter Topology

noncomputable section

variable {nx ny : ℕ} {Inp K : Type}

section bounds
variable {ι : Type*} [Fintype ι] [DecidableEq ι]

omit [DecidableEq ι] in
theorem quad_gram {κ : Type*} [Fintype κ] (U : Matrix ι κ ℝ) (v : ι → ℝ) :
    v ⬝ᵥ (U * Uᵀ) *ᵥ v = ∑ k, (Uᵀ *ᵥ v) k ^ 2 := by
  rw [← Matrix.mulVec_mulVec, Matrix.dotProduct_mulVec, ← Matrix.mulVec_transpose, dotProduct]
  exact Finset.sum_congr rfl fun k _ => (pow_two _).symm

omit [DecidableEq ι] in
theorem sum_sq_mulVec_le {κ : Type*} [Fintype κ] (M : Matrix κ ι ℝ) (x : ι → ℝ) :
    ∑ k, (M *ᵥ x) k ^ 2 ≤ (∑ k, ∑ i, M k i ^ 2) * ∑ i, x i ^ 2 := by
  rw [Finset.sum_mul]
  exact Finset.sum_le_sum fun k _ => Finset.sum_mul_sq_le_sq_mul_sq _ _ _

/-- An invertible covariance dominates every other one, up to a factor. -/
theorem gram_dominates {A B : Matrix ι ι ℝ} (hA : IsGram A) (hd : A.det ≠ 0) (hB : IsGram B) :
    ∃ κ : ℝ, 0 < κ ∧ ∀ v : ι → ℝ, v ⬝ᵥ B *ᵥ v ≤ κ * (v ⬝ᵥ A *ᵥ v) := by
  obtain ⟨U, rfl⟩ := hA
  obtain ⟨W, rfl⟩ := hB
  have hu : IsUnit (Uᵀ).det := by
    rw [Matrix.det_transpose, isUnit_iff_ne_zero]
    intro h
    rw [Matrix.det_mul, h, zero_mul] at hd
    exact hd rfl
  refine ⟨(∑ k, ∑ i, (Wᵀ * (Uᵀ)⁻¹) k i ^ 2) + 1, by positivity, fun v => ?_⟩
  rw [quad_gram, quad_gram]
  have e : Wᵀ *ᵥ v = (Wᵀ * (Uᵀ)⁻¹) *ᵥ (Uᵀ *ᵥ v) := by
    rw [Matrix.mulVec_mulVec, Matrix.mul_assoc, Matrix.nonsing_inv_mul _ hu, Matrix.mul_one]
  rw [e]
  refine (sum_sq_mulVec_le _ _).trans ?_
  have : 0 ≤ ∑ k, (Uᵀ *ᵥ v) k ^ 2 := Finset.sum_nonneg fun _ _ => sq_nonneg _
  nlinarith

theorem below_iff {A B : Matrix ι ι ℝ} (hA : IsGram A) (hB : IsGram B) :
    Below A B ↔ ∀ v : ι → ℝ, v ⬝ᵥ A *ᵥ v ≤ v ⬝ᵥ B *ᵥ v := by
  constructor
  · intro h v
    have := gram_quad_nonneg (isGram_iff.2 h) v
    rw [Matrix.sub_mulVec, dotProduct_sub] at this
    linarith
  · intro h
    refine Matrix.PosSemidef.of_dotProduct_mulVec_nonneg ?_ fun v => ?_
    · rw [Matrix.IsHermitian, Matrix.conjTranspose_eq_transpose_of_trivial, Matrix.transpose_sub, hA.symm, hB.symm]
    · rw [star_trivial, Matrix.sub_mulVec, dotProduct_sub]
      linarith [h v]

omit [DecidableEq ι] in
theorem gram_entry {P : Matrix ι ι ℝ} (hP : IsGram P) (i j : ι) : P i j ^ 2 ≤ P i i * P j j := by
  obtain ⟨U, rfl⟩ := hP
  simp only [Matrix.mul_apply, Matrix.transpose_apply]
  have := Finset.sum_mul_sq_le_sq_mul_sq Finset.univ (fun k => U i k) fun k => U j k
  simpa only [pow_two] using this

theorem quad_single (P : Matrix ι ι ℝ) (i j : ι) : Pi.single i 1 ⬝ᵥ P *ᵥ Pi.single j 1 = P i j := by
  simp

theorem gram_diag_nonneg {P : Matrix ι ι ℝ} (hP : IsGram P) (i : ι) : 0 ≤ P i i := by
  rw [← quad_single P i i]; exact gram_quad_nonneg hP _

theorem below_trace {P B : Matrix ι ι ℝ} (hP : IsGram P) (hB : IsGram B) (h : Below P B) (i : ι) : P i i ≤ B.trace := by
  have h1 := (below_iff hP hB).1 h (Pi.single i 1)
  rw [quad_single, quad_single] at h1
  exact h1.trans (Finset.single_le_sum (f := fun k => B k k) (fun k _ => gram_diag_nonneg hB k) (Finset.mem_univ i))

theorem below_entry {P B : Matrix ι ι ℝ} (hP : IsGram P) (hB : IsGram B) (h : Below P B) (i j : ι) :
    |P i j| ≤ B.trace := by
  have h0 : 0 ≤ B.trace := (gram_diag_nonneg hP i).trans (below_trace hP hB h i)
  refine abs_le_of_sq_le_sq ((gram_entry hP i j).trans ?_) h0
  rw [pow_two]
  exact mul_le_mul (below_trace hP hB h i) (below_trace hP hB h j) (gram_diag_nonneg hP j) h0

/-- Small differences of covariances that are bounded from below are small relative to them. -/
theorem covWithin_of_entries {A : Matrix ι ι ℝ} (hA : IsGram A) (hd : A.det ≠ 0) :
    ∃ κ : ℝ, 0 ≤ κ ∧ ∀ (ε : ℝ) (D P P' : Matrix ι ι ℝ), (∀ i j, |D i j| ≤ ε) → IsGram P → IsGram P' → Below A P →
      Below A P' → CovWithin (κ * ε ^ 2) D P P' := by
  obtain ⟨κ, hκ, h⟩ := gram_dominates hA hd (B := 1) ⟨1, by simp⟩
  obtain ⟨n, hn⟩ : ∃ n : ℝ, n = (Fintype.card ι : ℝ) := ⟨_, rfl⟩
  have hn0 : 0 ≤ n := hn ▸ Nat.cast_nonneg _
  refine ⟨n ^ 2 * κ ^ 2, by positivity, fun ε D P P' hD hP hP' h1 h2 v w => ?_⟩
  have hsum : ∀ x : ι → ℝ, (∑ i, |x i|) ^ 2 ≤ n * (x ⬝ᵥ (1 : Matrix ι ι ℝ) *ᵥ x) := fun x => by
    have := sq_sum_le_card_mul_sum_sq (s := Finset.univ) (f := fun i => |x i|)
    simp only [sq_abs, Finset.card_univ] at this
    rw [Matrix.one_mulVec, dotProduct, hn]
    simpa only [← pow_two] using this
  have hv : (∑ i, |v i|) ^ 2 ≤ n * κ * (v ⬝ᵥ P *ᵥ v) := by
    refine (hsum v).trans ?_
    rw [mul_assoc]
    exact mul_le_mul_of_nonneg_left ((h v).trans (mul_le_mul_of_nonneg_left ((below_iff hA hP).1 h1 v) hκ.le)) hn0
  have hw : (∑ i, |w i|) ^ 2 ≤ n * κ * (w ⬝ᵥ P' *ᵥ w) := by
    refine (hsum w).trans ?_
    rw [mul_assoc]
    exact mul_le_mul_of_nonneg_left ((h w).trans (mul_le_mul_of_nonneg_left ((below_iff hA hP').1 h2 w) hκ.le)) hn0
  have habs : |v ⬝ᵥ D *ᵥ w| ≤ ε * ((∑ i, |v i|) * ∑ j, |w j|) := by
    rw [dotProduct]
    refine (Finset.abs_sum_le_sum_abs _ _).trans ?_
    rw [Finset.sum_mul, Finset.mul_sum]
    refine Finset.sum_le_sum fun i _ => ?_
    rw [abs_mul, Matrix.mulVec, dotProduct]
    have : |∑ j, D i j * w j| ≤ ε * ∑ j, |w j| := by
      refine (Finset.abs_sum_le_sum_abs _ _).trans ?_
      rw [Finset.mul_sum]
      refine Finset.sum_le_sum fun j _ => ?_
      rw [abs_mul]
      exact mul_le_mul_of_nonneg_right (hD i j) (abs_nonneg _)
    calc |v i| * |∑ j, D i j * w j| ≤ |v i| * (ε * ∑ j, |w j|) := mul_le_mul_of_nonneg_left this (abs_nonneg _)
      _ = _ := by ring
  have h3 : (v ⬝ᵥ D *ᵥ w) ^ 2 ≤ (ε * ((∑ i, |v i|) * ∑ j, |w j|)) ^ 2 := by
    rw [← sq_abs]
    exact pow_le_pow_left₀ (abs_nonneg _) habs 2
  refine h3.trans ?_
  have h4 := mul_le_mul hv hw (sq_nonneg _) ((sq_nonneg _).trans hv)
  calc (ε * ((∑ i, |v i|) * ∑ j, |w j|)) ^ 2 = ε ^ 2 * ((∑ i, |v i|) ^ 2 * (∑ j, |w j|) ^ 2) := by ring
    _ ≤ ε ^ 2 * (n * κ * (v ⬝ᵥ P *ᵥ v) * (n * κ * (w ⬝ᵥ P' *ᵥ w))) := mul_le_mul_of_nonneg_left h4 (sq_nonneg _)
    _ = _ := by ring

theorem gram_of_tendsto {x : ℕ → Matrix ι ι ℝ} {X : Matrix ι ι ℝ} (hx : ∀ t, IsGram (x t))
    (h : ∀ i j, Tendsto (fun t => x t i j) atTop (𝓝 (X i j))) : IsGram X := by
  refine isGram_iff.2 (Matrix.PosSemidef.of_dotProduct_mulVec_nonneg ?_ fun v => ?_)
  · ext i j
    rw [Matrix.conjTranspose_apply, star_trivial]
    refine tendsto_nhds_unique (h j i) ((h i j).congr fun t => ?_)
    exact congrFun (congrFun (hx t).symm j) i
  · rw [star_trivial]
    have : Tendsto (fun t => v ⬝ᵥ x t *ᵥ v) atTop (𝓝 (v ⬝ᵥ X *ᵥ v)) := by
      simp only [dotProduct, Matrix.mulVec]
      exact tendsto_finsetSum _ fun i _ => (tendsto_finsetSum _ fun j _ => (h i j).mul_const _).const_mul _
    exact ge_of_tendsto' this fun t => gram_quad_nonneg (hx t) v

end bounds

/-! ## The recursion -/

section recursion
variable {ι : Type*} [Fintype ι] [DecidableEq ι] {F Q J : Matrix ι ι ℝ}

/-- One step of the recursion for the covariances. -/
def ric (F Q J P : Matrix ι ι ℝ) : Matrix ι ι ℝ := par (F * P * Fᵀ + Q) J

theorem ric_gram (hQ : IsGram Q) (hJ : IsGram J) {P : Matrix ι ι ℝ} (hP : IsGram P) : IsGram (ric F Q J P) :=
  par_gram ((hP.conj F).add hQ) hJ

theorem ric_mono (hQ : IsGram Q) (hJ : IsGram J) {P P' : Matrix ι ι ℝ} (hP : IsGram P) (h : Below P P') :
    Below (ric F Q J P) (ric F Q J P') :=
  par_mono ((hP.conj F).add hQ) hJ ((h.conj F).add (Below.refl Q))

theorem ric_lower (hQ : IsGram Q) (hJ : IsGram J) {P : Matrix ι ι ℝ} (hP : IsGram P) :
    Below (par Q J) (ric F Q J P) := by
  refine par_mono hQ hJ ?_
  rw [Below, add_sub_cancel_right]
  exact isGram_iff.1 (hP.conj F)

theorem par_det (hQ : IsGram Q) (hJ : IsGram J) (hd : Q.det ≠ 0) : (par Q J).det ≠ 0 := by
  intro h
  have := congrArg Matrix.det (par_left hQ hJ)
  rw [Matrix.det_mul, h, mul_zero] at this
  exact hd this.symm

theorem ric_covWithin (hQ : IsGram Q) (hJ : IsGram J) {c δ : ℝ} (hc : 0 ≤ c) (hδ : 0 ≤ δ) {P P' : Matrix ι ι ℝ}
    (hP : IsGram P) (hP' : IsGram P') (hN : NoiseDominates δ (F * P * Fᵀ) Q) (hN' : NoiseDominates δ (F * P' * Fᵀ) Q)
    (h : CovWithin c (P - P') P P') :
    CovWithin (c * (1 / (1 + δ)) ^ 2) (ric F Q J P - ric F Q J P') (ric F Q J P) (ric F Q J P') := by
  have h1 := h.step hc hP hP' (pred_quad hδ hN) (pred_quad hδ hN')
  have hS := (hP.conj F).add hQ
  have hS' := (hP'.conj F).add hQ
  have h2 : F * (P - P') * Fᵀ = (F * P * Fᵀ + Q) - (F * P' * Fᵀ + Q) := by
    rw [Matrix.mul_sub, Matrix.sub_mul, add_sub_add_right_eq_sub]
  rw [h2] at h1
  have h3 := h1.step (A := elimD (F * P * Fᵀ + Q) J) (A' := elimD (F * P' * Fᵀ + Q) J) (a := 1) (b := 1)
    (P₁ := par (F * P * Fᵀ + Q) J) (P₁' := par (F * P' * Fᵀ + Q) J) (mul_nonneg hc (by positivity)) hS hS'
    (fun v => by rw [one_mul]; exact par_split hS hJ v) (fun v => by rw [one_mul]; exact par_split hS' hJ v)
  rw [← par_sub hS hS' hJ, mul_one, mul_one, ← pow_two] at h3
  exact h3

variable (hQ : IsGram Q) (hQd : Q.det ≠ 0) (hJ : IsGram J)
include hQ hJ

theorem iter_gram {P : Matrix ι ι ℝ} (hP : IsGram P) (t : ℕ) : IsGram ((ric F Q J)^[t] P) := by
  induction t with
  | zero => exact hP
  | succ t ih => rw [Function.iterate_succ_apply']; exact ric_gram hQ hJ ih

theorem iter_below {P B : Matrix ι ι ℝ} (hP : IsGram P) (h : Below P B) (hB : Below (ric F Q J B) B) (t : ℕ) :
    Below ((ric F Q J)^[t] P) B := by
  induction t with
  | zero => exact h
  | succ t ih =>
    rw [Function.iterate_succ_apply']
    exact (ric_mono hQ hJ (iter_gram hQ hJ hP t) ih).trans hB

include hQd

/-- Below a covariance that does not grow, any two sequences of covariances approach each other geometrically, and the
recursion is Lipschitz. -/
theorem ric_contracts {B : Matrix ι ι ℝ} (hBg : IsGram B) (hB : Below (ric F Q J B) B) :
    ∃ C q : ℝ, 0 ≤ C ∧ 0 ≤ q ∧ q < 1 ∧
      (∀ P P', IsGram P → IsGram P' → Below P B → Below P' B → ∀ t i j,
        |((ric F Q J)^[t] P - (ric F Q J)^[t] P') i j| ≤ C * q ^ t) ∧
      ∀ ε P P', IsGram P → IsGram P' → Below P B → Below P' B → Below (par Q J) P → Below (par Q J) P' → 0 ≤ ε →
        (∀ i j, |(P - P') i j| ≤ ε) → ∀ i j, |(ric F Q J P - ric F Q J P') i j| ≤ C * ε := by
  obtain ⟨κ₁, hκ₁, h1⟩ := gram_dominates hQ hQd (hBg.conj F)
  obtain ⟨κ, hκ, h2⟩ := covWithin_of_entries (par_gram hQ hJ) (par_det hQ hJ hQd)
  obtain ⟨δ, hδ⟩ : ∃ δ : ℝ, δ = 1 / κ₁ := ⟨_, rfl⟩
  have hδ0 : 0 < δ := hδ ▸ by positivity
  obtain ⟨q, hq⟩ : ∃ q : ℝ, q = 1 / (1 + δ) := ⟨_, rfl⟩
  have hq0 : 0 < q := hq ▸ by positivity
  have hq1 : q < 1 := by rw [hq, div_lt_one (by linarith)]; linarith
  have hb0 : 0 ≤ B.trace := Finset.sum_nonneg fun i _ => gram_diag_nonneg hBg i
  obtain ⟨b, hb⟩ : ∃ b : ℝ, b = B.trace := ⟨_, rfl⟩
  rw [← hb] at hb0
  have hN : ∀ P, IsGram P → Below P B → NoiseDominates δ (F * P * Fᵀ) Q := by
    intro P hP h v
    have h3 := (below_iff (hP.conj F) (hBg.conj F)).1 (h.conj F) v
    have h4 := h3.trans (h1 v)
    rw [hδ, one_div, inv_mul_eq_div, div_le_iff₀ hκ₁]
    linarith
  have hent : ∀ c P P', 0 ≤ c → IsGram P → IsGram P' → Below P B → Below P' B → CovWithin (c ^ 2) (P - P') P P' →
      ∀ i j, |(P - P') i j| ≤ c * b := by
    intro c P P' hc hP hP' h3 h4 h5 i j
    have h6 := h5 (Pi.single i 1) (Pi.single j 1)
    rw [quad_single, quad_single, quad_single] at h6
    refine abs_le_of_sq_le_sq (h6.trans ?_) (mul_nonneg hc hb0)
    rw [mul_pow, pow_two b, ← mul_assoc]
    have h7 := below_trace hP hBg h3 i
    have h8 := below_trace hP' hBg h4 j
    rw [← hb] at h7 h8
    exact mul_le_mul (mul_le_mul_of_nonneg_left h7 (sq_nonneg c)) h8 (gram_diag_nonneg hP' j)
      (mul_nonneg (sq_nonneg c) hb0)
  obtain ⟨k, hk⟩ : ∃ k : ℝ, k = Real.sqrt κ := ⟨_, rfl⟩
  have hk0 : 0 ≤ k := hk ▸ Real.sqrt_nonneg _
  have hk2 : k ^ 2 = κ := by rw [hk, Real.sq_sqrt hκ]
  refine ⟨2 * b + k * (2 * b) * b / q + k * b, q, by positivity, hq0.le, hq1, ?_, ?_⟩
  · intro P P' hP hP' h3 h4 t
    have hg := iter_gram (F := F) hQ hJ hP
    have hg' := iter_gram (F := F) hQ hJ hP'
    have hbl := iter_below hQ hJ hP h3 hB
    have hbl' := iter_below hQ hJ hP' h4 hB
    have hent2 : ∀ t i j, |((ric F Q J)^[t] P - (ric F Q J)^[t] P') i j| ≤ 2 * b := by
      intro t i j
      have h5 := below_entry (hg t) hBg (hbl t) i j
      have h6 := below_entry (hg' t) hBg (hbl' t) i j
      rw [← hb] at h5 h6
      rw [Matrix.sub_apply]
      exact (abs_sub _ _).trans (by linarith)
    cases t with
    | zero =>
      intro i j
      refine (hent2 0 i j).trans ?_
      rw [pow_zero, mul_one]
      have : 0 ≤ k * (2 * b) * b / q := by positivity
      have : 0 ≤ k * b := by positivity
      linarith
    | succ t =>
      have key : ∀ t, CovWithin ((k * (2 * b) * q ^ t) ^ 2) ((ric F Q J)^[t + 1] P - (ric F Q J)^[t + 1] P')
          ((ric F Q J)^[t + 1] P) ((ric F Q J)^[t + 1] P') := by
        intro t
        induction t with
        | zero =>
          rw [pow_zero, mul_one, mul_pow, hk2]
          refine h2 (2 * b) _ _ _ (hent2 1) (hg 1) (hg' 1) ?_ ?_
          · exact ric_lower hQ hJ hP
          · exact ric_lower hQ hJ hP'
        | succ t ih =>
          rw [Function.iterate_succ_apply' _ (t + 1), Function.iterate_succ_apply' _ (t + 1)]
          have := ric_covWithin hQ hJ (sq_nonneg _) hδ0.le (hg (t + 1)) (hg' (t + 1)) (hN _ (hg _) (hbl _))
            (hN _ (hg' _) (hbl' _)) ih
          rw [← hq, ← mul_pow] at this
          rwa [pow_succ q t, ← mul_assoc]
      intro i j
      have h5 := hent _ _ _ (by positivity) (hg (t + 1)) (hg' (t + 1)) (hbl _) (hbl' _) (key t) i j
      refine h5.trans ?_
      have e : k * (2 * b) * q ^ t * b = k * (2 * b) * b / q * q ^ (t + 1) := by
        rw [pow_succ]; field_simp
      rw [e]
      refine mul_le_mul_of_nonneg_right ?_ (by positivity)
      have : 0 ≤ k * b := by positivity
      linarith
  · intro ε P P' hP hP' h3 h4 h5 h6 hε h7 i j
    have h8 := ric_covWithin hQ hJ (by positivity) hδ0.le hP hP' (hN _ hP h3) (hN _ hP' h4)
      (h2 ε _ P P' h7 hP hP' h5 h6)
    rw [← hq, ← hk2, ← mul_pow, ← mul_pow] at h8
    have h9 := hent _ _ _ (by positivity) (ric_gram hQ hJ hP) (ric_gram hQ hJ hP')
      ((ric_mono hQ hJ hP h3).trans hB) ((ric_mono hQ hJ hP' h4).trans hB) h8 i j
    refine h9.trans ?_
    have e1 : k * ε * q * b ≤ k * b * ε := by
      have : 0 ≤ k * ε * b := by positivity
      nlinarith
    have e2 : 0 ≤ 2 * b * ε := by positivity
    have e3 : 0 ≤ k * (2 * b) * b / q * ε := by positivity
    linarith

/-- If every covariance lies below one that does not grow, the recursion converges geometrically to its only fixed
point, whatever the start. -/
theorem ric_converges (hsup : ∀ P, IsGram P → ∃ B, IsGram B ∧ Below P B ∧ Below (ric F Q J B) B) :
    ∃ X, IsGram X ∧ ric F Q J X = X ∧ (∀ X', IsGram X' → ric F Q J X' = X' → X' = X) ∧
      ∀ P, IsGram P → ∃ C q : ℝ, 0 ≤ q ∧ q < 1 ∧ ∀ t i j, |((ric F Q J)^[t] P - X) i j| ≤ C * q ^ t := by
  have hfix : ∀ X, ric F Q J X = X → ∀ t, (ric F Q J)^[t] X = X := fun X h t => Function.iterate_fixed h t
  have hconv : ∀ P X, IsGram P → IsGram X → ric F Q J X = X →
      ∃ C q : ℝ, 0 ≤ q ∧ q < 1 ∧ ∀ t i j, |((ric F Q J)^[t] P - X) i j| ≤ C * q ^ t := by
    intro P X hP hX hf
    obtain ⟨B, hBg, h1, hB⟩ := hsup (P + X) (hP.add hX)
    have h2 : Below P B := Below.trans (by rw [Below, add_sub_cancel_left]; exact isGram_iff.1 hX) h1
    have h3 : Below X B := Below.trans (by rw [Below, add_sub_cancel_right]; exact isGram_iff.1 hP) h1
    obtain ⟨C, q, -, hq, hq1, h4, -⟩ := ric_contracts hQ hQd hJ hBg hB
    refine ⟨C, q, hq, hq1, fun t i j => ?_⟩
    have := h4 P X hP hX h2 h3 t i j
    rwa [hfix X hf] at this
  obtain ⟨B, hBg, -, hB⟩ := hsup 0 isGram_zero
  obtain ⟨C, q, hC, hq, hq1, h4, h5⟩ := ric_contracts hQ hQd hJ hBg hB
  obtain ⟨x, hx⟩ : ∃ x : ℕ → Matrix ι ι ℝ, x = fun t => (ric F Q J)^[t + 1] B := ⟨_, rfl⟩
  have hxs : ∀ t, x (t + 1) = ric F Q J (x t) := fun t => by
    rw [hx]; exact Function.iterate_succ_apply' _ _ _
  have hxg : ∀ t, IsGram (x t) := fun t => by rw [hx]; exact iter_gram hQ hJ hBg _
  have hxB : ∀ t, Below (x t) B := fun t => by rw [hx]; exact iter_below hQ hJ hBg (Below.refl B) hB _
  have hxL : ∀ t, Below (par Q J) (x t) := fun t => by
    rw [hx]; simp only [Function.iterate_succ_apply']; exact ric_lower hQ hJ (iter_gram hQ hJ hBg _)
  have hcauchy : ∀ i j, ∃ l, Tendsto (fun t => x t i j) atTop (𝓝 l) := by
    intro i j
    refine cauchySeq_tendsto_of_complete (cauchySeq_of_le_geometric q (C * q) hq1 fun t => ?_)
    have := h4 B (ric F Q J B) hBg (ric_gram hQ hJ hBg) (Below.refl B) hB (t + 1) i j
    rw [← Function.iterate_succ_apply, Matrix.sub_apply] at this
    rw [Real.dist_eq, hx]
    calc _ ≤ C * q ^ (t + 1) := this
      _ = C * q * q ^ t := by ring
  choose X hX using hcauchy
  have hXg : IsGram (Matrix.of X) := gram_of_tendsto hxg hX
  have hXB : Below (Matrix.of X) B := by
    refine isGram_iff.1 (gram_of_tendsto (x := fun t => B - x t) (fun t => isGram_iff.2 (hxB t)) fun i j => ?_)
    exact (hX i j).const_sub _
  have hXL : Below (par Q J) (Matrix.of X) := by
    refine isGram_iff.1 (gram_of_tendsto (x := fun t => x t - par Q J) (fun t => isGram_iff.2 (hxL t)) fun i j => ?_)
    exact (hX i j).sub_const _
  have hf : ric F Q J (Matrix.of X) = Matrix.of X := by
    ext i j
    have hdiff : ∀ i j, Tendsto (fun t => |(x t - Matrix.of X) i j|) atTop (𝓝 0) := by
      intro i j
      have := ((hX i j).sub_const (X i j)).abs
      rwa [sub_self, abs_zero] at this
    have hsum : Tendsto (fun t => ∑ a, ∑ b, |(x t - Matrix.of X) a b|) atTop (𝓝 0) := by
      have := tendsto_finsetSum Finset.univ fun a _ => tendsto_finsetSum Finset.univ fun b (_ : b ∈ Finset.univ) => hdiff a b
      simpa using this
    have hlip : ∀ t, |x (t + 1) i j - ric F Q J (Matrix.of X) i j| ≤ C * ∑ a, ∑ b, |(x t - Matrix.of X) a b| := by
      intro t
      rw [hxs]
      refine h5 _ (x t) (Matrix.of X) (hxg t) hXg (hxB t) hXB (hxL t) hXL
        (Finset.sum_nonneg fun _ _ => Finset.sum_nonneg fun _ _ => abs_nonneg _) (fun a b => ?_) i j
      exact (Finset.single_le_sum (f := fun b => |(x t - Matrix.of X) a b|) (fun _ _ => abs_nonneg _)
        (Finset.mem_univ b)).trans (Finset.single_le_sum (f := fun a => ∑ b, |(x t - Matrix.of X) a b|)
        (fun _ _ => Finset.sum_nonneg fun _ _ => abs_nonneg _) (Finset.mem_univ a))
    have hz : Tendsto (fun t => x (t + 1) i j - ric F Q J (Matrix.of X) i j) atTop (𝓝 0) := by
      refine squeeze_zero_norm hlip ?_
      simpa using hsum.const_mul C
    have h6 : Tendsto (fun t => x (t + 1) i j) atTop (𝓝 (ric F Q J (Matrix.of X) i j)) := by
      simpa using hz.add_const (ric F Q J (Matrix.of X) i j)
    exact tendsto_nhds_unique h6 ((hX i j).comp (tendsto_add_atTop_nat 1))
  refine ⟨Matrix.of X, hXg, hf, fun X' hX' hf' => ?_, fun P hP => hconv P _ hP hXg hf⟩
  obtain ⟨C', q', hq', hq1', h6⟩ := hconv X' _ hX' hXg hf
  ext i j
  have h7 : ∀ t : ℕ, |(X' - Matrix.of X) i j| ≤ C' * q' ^ t := fun t => by
    have := h6 t i j
    rwa [hfix X' hf'] at this
  have h8 : Tendsto (fun t : ℕ => C' * q' ^ t) atTop (𝓝 0) := by
    simpa using (tendsto_pow_atTop_nhds_zero_of_lt_one hq' hq1').const_mul C'
  have h9 : |(X' - Matrix.of X) i j| ≤ 0 := ge_of_tendsto' h8 h7
  exact sub_eq_zero.1 (abs_eq_zero.1 (le_antisymm h9 (abs_nonneg _)))

end recursion

/-! ## Detectability -/

/-- No gain gives a smaller covariance than the conditional one. -/
theorem condCov_le_joseph {ι ο : Type*} [Fintype ι] [DecidableEq ι] [Fintype ο] [DecidableEq ο] {S : Matrix ι ι ℝ}
    {H : Matrix ο ι ℝ} {R : Matrix ο ο ℝ} (hS : IsGram S) (hR : IsGram R) (hd : R.det ≠ 0) (G : Matrix ι ο ℝ) :
    Below (condCov S H R) ((1 - G * H) * S * (1 - G * H)ᵀ + G * R * Gᵀ) := by
  have hV : IsGram (innovCov S H R) := (hS.conj H).add hR
  have hu : IsUnit (innovCov S H R).det := by
    rw [isUnit_iff_ne_zero, innovCov, add_comm]
    exact hR.det_add_ne_zero hd (hS.conj H)
  obtain ⟨V, hVe⟩ : ∃ V, V = innovCov S H R := ⟨_, rfl⟩
  have hR' : R = V - H * S * Hᵀ := by rw [hVe, innovCov, add_sub_cancel_left]
  rw [← hVe] at hu hV
  have e : (1 - G * H) * S * (1 - G * H)ᵀ + G * R * Gᵀ - condCov S H R =
      (G - S * Hᵀ * V⁻¹) * V * (G - S * Hᵀ * V⁻¹)ᵀ := by
    rw [condCov, ← hVe, hR', Matrix.transpose_sub, Matrix.transpose_sub, Matrix.transpose_one, Matrix.transpose_mul,
      Matrix.transpose_mul, Matrix.transpose_mul, Matrix.transpose_transpose, hS.symm, hV.inv.symm, Matrix.sub_mul G,
      Matrix.nonsing_inv_mul_cancel_right _ _ hu]
    simp only [Matrix.mul_sub, Matrix.sub_mul, Matrix.one_mul, Matrix.mul_one, Matrix.mul_assoc]
    rw [Matrix.mul_nonsing_inv_cancel_left _ _ hu]
    abel
  rw [Below, e]
  exact isGram_iff.1 (hV.conj _)

theorem _root_.Cuthbert.Spec.Detectable.super {F : Matrix (Fin nx) (Fin nx) ℝ} {H : Matrix (Fin ny) (Fin nx) ℝ} (h : Detectable F H)
    {Q : Matrix (Fin nx) (Fin nx) ℝ} {R : Matrix (Fin ny) (Fin ny) ℝ} (hQ : IsGram Q) (hR : IsGram R) (hd : R.det ≠ 0)
    (P : Matrix (Fin nx) (Fin nx) ℝ) (hP : IsGram P) :
    ∃ B, IsGram B ∧ Below P B ∧ Below (ric F Q (obsInfo H R) B) B := by
  obtain ⟨G, B, ρ, hB, hρ, hρ1, hA⟩ := h
  have hBg : IsGram B := isGram_iff.2 hB.posSemidef
  have hBd : B.det ≠ 0 := hB.det_pos.ne'
  obtain ⟨A, hAe⟩ : ∃ A, A = (1 - G * H) * F := ⟨_, rfl⟩
  obtain ⟨N, hN⟩ : ∃ N, N = (1 - G * H) * Q * (1 - G * H)ᵀ + G * R * Gᵀ := ⟨_, rfl⟩
  have hNg : IsGram N := hN ▸ (hQ.conj _).add (hR.conj _)
  obtain ⟨κ₁, hκ₁, h1⟩ := gram_dominates hBg hBd hP
  obtain ⟨κ₂, hκ₂, h2⟩ := gram_dominates hBg hBd hNg
  obtain ⟨c, hc⟩ : ∃ c : ℝ, c = κ₁ + κ₂ / (1 - ρ) := ⟨_, rfl⟩
  have h1ρ : 0 < 1 - ρ := by linarith
  have hc0 : 0 ≤ c := by rw [hc]; positivity
  have hcB : IsGram (c • B) := isGram_iff.2 (hB.posSemidef.smul hc0)
  rw [← hAe] at hA
  refine ⟨c • B, hcB, ?_, ?_⟩
  · refine (below_iff hP hcB).2 fun v => (h1 v).trans ?_
    rw [Matrix.smul_mulVec, dotProduct_smul, smul_eq_mul]
    refine mul_le_mul_of_nonneg_right ?_ (gram_quad_nonneg hBg v)
    rw [hc]
    have : 0 ≤ κ₂ / (1 - ρ) := by positivity
    linarith
  · have hS : IsGram (F * (c • B) * Fᵀ + Q) := (hcB.conj F).add hQ
    have h3 := condCov_le_joseph (H := H) hS hR hd G
    rw [condCov_eq_par hS hR hd] at h3
    refine Below.trans h3 ?_
    have e : (1 - G * H) * (F * (c • B) * Fᵀ + Q) * (1 - G * H)ᵀ + G * R * Gᵀ = c • (A * B * Aᵀ) + N := by
      rw [hN, hAe, Matrix.mul_add, Matrix.add_mul, Matrix.transpose_mul]
      simp only [Matrix.mul_smul, Matrix.smul_mul, Matrix.mul_assoc, add_assoc]
    have hρB : IsGram (ρ • B) := isGram_iff.2 (hB.posSemidef.smul hρ)
    rw [e]
    refine (below_iff ((isGram_iff.2 ((isGram_iff.1 (hBg.conj A)).smul hc0)).add hNg) hcB).2 fun v => ?_
    have h4 := (below_iff (hBg.conj A) hρB).1 hA v
    have h5 := h2 v
    have h6 := gram_quad_nonneg hBg v
    simp only [Matrix.add_mulVec, dotProduct_add, Matrix.smul_mulVec, dotProduct_smul, smul_eq_mul] at h4 ⊢
    have h7 := mul_le_mul_of_nonneg_left h4 hc0
    have h8 : κ₂ ≤ c * (1 - ρ) := by
      rw [hc, add_mul, div_mul_cancel₀ _ h1ρ.ne']
      have : 0 ≤ κ₁ * (1 - ρ) := by positivity
      linarith
    have h9 := mul_le_mul_of_nonneg_right h8 h6
    linarith

/-! ## The filter -/

theorem _root_.Cuthbert.Spec.HasParams.info {s : Step nx ny} {F Q : Matrix (Fin nx) (Fin nx) ℝ}
    {H : Matrix (Fin ny) (Fin nx) ℝ} {R : Matrix (Fin ny) (Fin ny) ℝ} (h : HasParams s F Q H R) :
    stepInfo s = obsInfo H R ∧ s.R.det = R.det := by
  let e : Obs s.y ≃ Fin ny := ⟨Subtype.val, fun i => ⟨i, h.y i⟩, fun _ => rfl, fun _ => rfl⟩
  have hR : s.R = R.submatrix e e := by rw [← h.R]; rfl
  have hH : obsH s.y s.H = H.submatrix e id := by rw [← h.H]; rfl
  refine ⟨?_, by rw [hR, Matrix.det_submatrix_equiv_self]⟩
  rw [stepInfo, obsInfo, hR, hH, obsInfo, Matrix.inv_submatrix_equiv, Matrix.transpose_submatrix,
    Matrix.submatrix_mul_equiv, Matrix.submatrix_mul_equiv, Matrix.submatrix_id_id]

theorem riccati_eq {F Q : Matrix (Fin nx) (Fin nx) ℝ} {H : Matrix (Fin ny) (Fin nx) ℝ} {R : Matrix (Fin ny) (Fin ny) ℝ}
    (hQ : IsGram Q) (hR : IsGram R) (hd : R.det ≠ 0) {P : Matrix (Fin nx) (Fin nx) ℝ} (hP : IsGram P) :
    riccati F Q H R P = ric F Q (obsInfo H R) P := by
  rw [ric, ← condCov_eq_par ((hP.conj F).add hQ) hR hd]
  rfl

/-- **C110**. In a time-invariant model with invertible noise covariances and a detectable state, the covariance
reported by the filter converges geometrically to the only covariance that solves the Riccati equation. The limit is the
same for all initial covariances and data; the constants depend on the initial covariance but neither on the
data nor on the number of steps. -/
theorem filter_steady_state {F Q : Matrix (Fin nx) (Fin nx) ℝ} {H : Matrix (Fin ny) (Fin nx) ℝ}
    {R : Matrix (Fin ny) (Fin ny) ℝ} (hQ : Q.PosDef) (hR : R.PosDef) (hdet : Detectable F H) :
    ∃ X : Matrix (Fin nx) (Fin nx) ℝ, X.PosDef ∧ riccati F Q H R X = X ∧
      (∀ X' : Matrix (Fin nx) (Fin nx) ℝ, X'.PosSemidef → riccati F Q H R X' = X' → X' = X) ∧
      ∀ L₀ : Matrix (Fin nx) (Fin nx) ℝ, ∃ C q : ℝ, 0 ≤ q ∧ q < 1 ∧
        ∀ (qr : QR) (rng : Prng K) (cb : Callbacks nx ny Inp) (u₀ : Inp) (us : List Inp) (parallel : Bool)
          (key : Option K), (cb.getInit u₀).2 = L₀ → (∀ u ∈ us, HasParams (stepOf cb u) F Q H R) →
          ∃ states, (filter rng (buildFilter qr cb) (u₀ :: us) parallel key).result = .ok states ∧
            states.length = us.length + 1 ∧ ∀ (t : ℕ) s, states[t]? = some s → ∃ L, s.cholCov = some L ∧
              ∀ i j, |(L * Lᵀ - X) i j| ≤ C * q ^ t := by
  have hQg : IsGram Q := isGram_iff.2 hQ.posSemidef
  have hRg : IsGram R := isGram_iff.2 hR.posSemidef
  have hQd := hQ.det_pos.ne'
  have hRd := hR.det_pos.ne'
  have hJ : IsGram (obsInfo H R) := obsInfo_gram hRg
  obtain ⟨X, hXg, hf, huniq, hconv⟩ := ric_converges (F := F) hQg hQd hJ
    fun P hP => hdet.super hQg hRg hRd P hP
  have hXd : X.det ≠ 0 := by rw [← hf]; exact par_det ((hXg.conj F).add hQg) hJ (by
    rw [add_comm]; exact hQg.det_add_ne_zero hQd (hXg.conj F))
  refine ⟨X, hXg.posDef hXd, (riccati_eq hQg hRg hRd hXg).trans hf, fun X' hX' hf' => huniq X' (isGram_iff.2 hX') ?_,
    fun L₀ => ?_⟩
  · rwa [riccati_eq hQg hRg hRd (isGram_iff.2 hX')] at hf'
  · obtain ⟨C, q, hq, hq1, h⟩ := hconv (L₀ * L₀ᵀ) (isGram_of L₀)
    refine ⟨C, q, hq, hq1, fun qr rng cb u₀ us parallel key h0 hus => ?_⟩
    have hR' : ∀ u ∈ us, (stepOf cb u).R.det ≠ 0 := fun u hu => by rw [(hus u hu).info.2]; exact hRd
    obtain ⟨states, h1, h2, -⟩ := kalman_filter_exact qr rng cb u₀ us parallel key hR'
    refine ⟨states, h1, h2, fun t s hs => ?_⟩
    obtain ⟨ht, L, h3, h4⟩ := filter_cov qr rng cb u₀ us parallel key hR' h1 hs
    refine ⟨L, h3, ?_⟩
    have key : ∀ t ≤ us.length, (kfAt cb u₀ us t).P = (ric F Q (obsInfo H R))^[t] (L₀ * L₀ᵀ) := by
      intro t
      induction t with
      | zero => intro _; rw [← h0]; rfl
      | succ t ih =>
        intro ht
        have hu : us[t]? = some (us[t]'(by omega)) := List.getElem?_eq_getElem _
        have hp := hus _ (List.mem_of_getElem? hu)
        rw [kfAt_succ cb u₀ us _ _ hu, kfStep_P _ (kfAt_gram cb u₀ us hR' t) _ (hR' _ (List.mem_of_getElem? hu)),
          Function.iterate_succ_apply', ← ih (by omega), hp.info.1, hp.F, hp.Q, ric]
    rw [h4, key t ht]
    exact h t

/-- A stable system is detectable, whatever is observed. -/
theorem detectable_of_stable {F : Matrix (Fin nx) (Fin nx) ℝ} (H : Matrix (Fin ny) (Fin nx) ℝ)
    (B : Matrix (Fin nx) (Fin nx) ℝ) (ρ : ℝ) (hB : B.PosDef) (hρ : 0 ≤ ρ) (hρ1 : ρ < 1) (h : Below (F * B * Fᵀ) (ρ • B)) :
    Detectable F H := ⟨0, B, ρ, hB, hρ, hρ1, by simpa using h⟩

/-- So is a system whose state can be computed from one noiseless observation, however unstable. -/
theorem detectable_of_leftInverse (F : Matrix (Fin nx) (Fin nx) ℝ) (H : Matrix (Fin ny) (Fin nx) ℝ)
    (G : Matrix (Fin nx) (Fin ny) ℝ) (h : G * H = 1) : Detectable F H :=
  ⟨G, 1, 0, Matrix.PosDef.one, le_rfl, one_pos, by simp [h, Below, Matrix.PosSemidef.zero]⟩

/-- Non-vacuity: an unstable scalar system meets the hypotheses, and a two-dimensional one of which only the sum of the
unstable first and the stable second component is observed. -/
example : (1 : Matrix (Fin 1) (Fin 1) ℝ).PosDef ∧ Detectable !![(3 : ℝ)] !![(2 : ℝ)] ∧
    Detectable !![(2 : ℝ), 0; 0, 1 / 2] !![(1 : ℝ), 1] := by
  refine ⟨Matrix.PosDef.one, detectable_of_leftInverse _ _ !![1 / 2] (by ext i j; fin_cases i; fin_cases j; norm_num), ?_⟩
  refine ⟨!![1; 0], 1, 1 / 2, Matrix.PosDef.one, by norm_num, by norm_num, ?_⟩
  have e : (1 / 2 : ℝ) • (1 : Matrix (Fin 2) (Fin 2) ℝ) - (1 - !![(1 : ℝ); 0] * !![(1 : ℝ), 1]) * !![(2 : ℝ), 0; 0, 1 / 2] * 1 *
      ((1 - !![(1 : ℝ); 0] * !![(1 : ℝ), 1]) * !![(2 : ℝ), 0; 0, 1 / 2])ᵀ = !![(1 / 2 : ℝ); 1 / 2] * !![(1 / 2 : ℝ); 1 / 2]ᵀ := by
    ext i j
    fin_cases i <;> fin_cases j <;> norm_num [Matrix.mul_apply, Fin.sum_univ_two, Matrix.one_apply]
  rw [Below, e]
  exact posSemidef_gram _

end

end Cuthbert.Kalman
