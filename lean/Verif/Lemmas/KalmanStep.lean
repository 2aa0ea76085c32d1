import Verif.Lemmas.KalmanAlg
import Verif.Spec.Conditioning

/-!
# One filtering step in covariance form

The combination of a filtering state with a prepared element is predict-then-update.
-/

namespace Cuthbert
open Matrix

noncomputable section

set_option linter.unusedSectionVars false

variable {ι ο : Type*} [Fintype ι] [DecidableEq ι] [Fintype ο] [DecidableEq ο]

/-- The prepared element of one time step in covariance form. -/
def prepC (F : Matrix ι ι ℝ) (c : ι → ℝ) (Q : Matrix ι ι ℝ) (H : Matrix ο ι ℝ) (d : ο → ℝ)
    (R : Matrix ο ο ℝ) (y : ο → ℝ) : CElem ι where
  A := F - Q * (Hᵀ * (innovCov Q H R)⁻¹ * H) * F
  b := condMean c Q H d R y
  C := condCov Q H R
  eta := Fᵀ *ᵥ (Hᵀ *ᵥ ((innovCov Q H R)⁻¹ *ᵥ (y - (H *ᵥ c + d))))
  J := Fᵀ * (Hᵀ * (innovCov Q H R)⁻¹ * H) * F
  ell := gaussLogDensity (H *ᵥ c + d) (innovCov Q H R) y

theorem IsGram.posDef {S : Matrix ο ο ℝ} (h : IsGram S) (hd : S.det ≠ 0) : S.PosDef :=
  (isGram_iff.mp h).posDef_iff_det_ne_zero.mpr hd

theorem IsGram.det_add_ne_zero {S T : Matrix ο ο ℝ} (h : IsGram S) (hd : S.det ≠ 0) (hT : IsGram T) :
    (S + T).det ≠ 0 :=
  ((h.posDef hd).add_posSemidef (isGram_iff.mp hT)).det_pos.ne'

theorem IsGram.inv {S : Matrix ο ο ℝ} (h : IsGram S) : IsGram S⁻¹ := by
  rw [isGram_iff] at *
  exact h.inv

theorem innovCov_gram {P : Matrix ι ι ℝ} {H : Matrix ο ι ℝ} {R : Matrix ο ο ℝ} (hP : IsGram P)
    (hR : IsGram R) : IsGram (innovCov P H R) := (hP.conj H).add hR

theorem gram_conj_transpose {M : Matrix ο ο ℝ} (h : IsGram M) (H : Matrix ο ι ℝ) :
    IsGram (Hᵀ * M * H) := by
  have := h.conj Hᵀ
  rwa [Matrix.transpose_transpose] at this

theorem transpose_conj {M : Matrix ο ο ℝ} (h : Mᵀ = M) (H : Matrix ο ι ℝ) :
    (Hᵀ * M * H)ᵀ = Hᵀ * M * H := by
  rw [Matrix.transpose_mul, Matrix.transpose_mul, Matrix.transpose_transpose, h, Matrix.mul_assoc]

/-- `R = Lᴸᵀ`-type square roots in any index type. -/
theorem IsGram.exists_sqrt {S : Matrix ο ο ℝ} (h : IsGram S) : ∃ W : Matrix ο ο ℝ, W * Wᵀ = S := by
  obtain ⟨W, hW⟩ := h
  exact ⟨W, hW.symm⟩

theorem condCov_gram {P : Matrix ι ι ℝ} {H : Matrix ο ι ℝ} {R : Matrix ο ο ℝ} (hP : IsGram P)
    (hR : IsGram R) (hd : (innovCov P H R).det ≠ 0) : IsGram (condCov P H R) := by
  -- Joseph form
  set S := innovCov P H R with hS
  have hSs : Sᵀ = S := (innovCov_gram hP hR).symm
  have hu : IsUnit S.det := isUnit_iff_ne_zero.mpr hd
  have hSi : (S⁻¹)ᵀ = S⁻¹ := by rw [Matrix.transpose_nonsing_inv, hSs]
  set Kg := P * Hᵀ * S⁻¹ with hK
  have hKt : Kgᵀ = S⁻¹ * (H * P) := by
    rw [hK, Matrix.transpose_mul, hSi, Matrix.transpose_mul, Matrix.transpose_transpose, hP.symm]
  have hc : condCov P H R = P - Kg * (H * P) := by
    rw [condCov, ← hS, hK]; simp only [Matrix.mul_assoc]
  have hJ : condCov P H R = (1 - Kg * H) * P * (1 - Kg * H)ᵀ + Kg * R * Kgᵀ := by
    have e1 : Kg * S * Kgᵀ = Kg * (H * P) := by
      rw [hKt, Matrix.mul_assoc, ← Matrix.mul_assoc S, Matrix.mul_nonsing_inv _ hu, Matrix.one_mul]
    have e2 : P * Hᵀ * Kgᵀ = Kg * (H * P) := by
      rw [hKt, hK]; simp only [Matrix.mul_assoc]
    have e3 : Kg * S * Kgᵀ = Kg * (H * P * Hᵀ) * Kgᵀ + Kg * R * Kgᵀ := by
      rw [hS, innovCov, Matrix.mul_add, Matrix.add_mul]
    have e4 : Kg * R * Kgᵀ = Kg * (H * P) - Kg * (H * P * Hᵀ) * Kgᵀ := by
      rw [eq_sub_iff_add_eq, add_comm, ← e3, e1]
    rw [e4, hc, Matrix.transpose_sub, Matrix.transpose_one, Matrix.transpose_mul, Matrix.mul_sub,
      Matrix.mul_one, Matrix.sub_mul, Matrix.one_mul, Matrix.sub_mul]
    have e5 : P * (Hᵀ * Kgᵀ) = Kg * (H * P) := by rw [← Matrix.mul_assoc]; exact e2
    have e6 : Kg * H * P * (Hᵀ * Kgᵀ) = Kg * (H * P * Hᵀ) * Kgᵀ := by simp only [Matrix.mul_assoc]
    rw [e5, e6, Matrix.mul_assoc Kg H P]
    abel
  rw [hJ]
  exact (hP.conj _).add (hR.conj _)

theorem prepC_valid {F : Matrix ι ι ℝ} {c : ι → ℝ} {Q : Matrix ι ι ℝ} {H : Matrix ο ι ℝ} {d : ο → ℝ}
    {R : Matrix ο ο ℝ} (y : ο → ℝ) (hQ : IsGram Q) (hR : IsGram R) (hd : (innovCov Q H R).det ≠ 0) :
    (prepC F c Q H d R y).Valid := by
  refine ⟨condCov_gram hQ hR hd, ?_⟩
  exact gram_conj_transpose (gram_conj_transpose (innovCov_gram hQ hR).inv H) F

theorem innovCov_step (P F Q : Matrix ι ι ℝ) (H : Matrix ο ι ℝ) (R : Matrix ο ο ℝ) :
    innovCov (F * P * Fᵀ + Q) H R = innovCov Q H R + (H * F) * P * (H * F)ᵀ := by
  simp only [innovCov, Matrix.transpose_mul, Matrix.mul_add, Matrix.add_mul, Matrix.mul_assoc]
  abel

theorem innovCov_step_det {P F Q : Matrix ι ι ℝ} {H : Matrix ο ι ℝ} {R : Matrix ο ο ℝ} (hP : IsGram P)
    (hQ : IsGram Q) (hR : IsGram R) (hd : (innovCov Q H R).det ≠ 0) :
    (innovCov (F * P * Fᵀ + Q) H R).det ≠ 0 := by
  rw [innovCov_step]
  exact (innovCov_gram hQ hR).det_add_ne_zero hd (hP.conj _)

/-- Conditioning keeps a nonsingular covariance nonsingular when the noise is nonsingular. -/
theorem condCov_det {P : Matrix ι ι ℝ} {H : Matrix ο ι ℝ} {R : Matrix ο ο ℝ} (hP : IsGram P)
    (hR : IsGram R) (hPd : P.det ≠ 0) (hRd : R.det ≠ 0) : (condCov P H R).det ≠ 0 := by
  have hSd : (innovCov P H R).det ≠ 0 := by
    rw [innovCov, add_comm]; exact hR.det_add_ne_zero hRd (hP.conj H)
  have hSu : IsUnit (innovCov P H R).det := isUnit_iff_ne_zero.mpr hSd
  have hRu : IsUnit R.det := isUnit_iff_ne_zero.mpr hRd
  have h1 : (1 + P * Hᵀ * R⁻¹ * H) * (P * Hᵀ) = P * Hᵀ * R⁻¹ * innovCov P H R := by
    rw [innovCov, Matrix.add_mul, Matrix.one_mul, Matrix.mul_add, Matrix.mul_assoc _ R⁻¹ R,
      Matrix.nonsing_inv_mul _ hRu, Matrix.mul_one, add_comm]
    simp only [Matrix.mul_assoc]
  have h2 : (1 + P * Hᵀ * R⁻¹ * H) * condCov P H R = P := by
    have : P * (Hᵀ * (innovCov P H R)⁻¹ * H) * P =
        P * Hᵀ * ((innovCov P H R)⁻¹ * (H * P)) := by simp only [Matrix.mul_assoc]
    rw [condCov, this, Matrix.mul_sub, ← Matrix.mul_assoc _ (P * Hᵀ), h1,
      Matrix.mul_assoc _ (innovCov P H R), Matrix.mul_nonsing_inv_cancel_left _ _ hSu,
      Matrix.add_mul, Matrix.one_mul]
    simp only [Matrix.mul_assoc]
    abel
  intro h0
  apply hPd
  rw [← h2, Matrix.det_mul, h0, mul_zero]

/-- The relation read off the chain of a filtering state and a prepared element. -/
theorem step_chain {m : ι → ℝ} {P F : Matrix ι ι ℝ} {c : ι → ℝ} {Q : Matrix ι ι ℝ}
    {H : Matrix ο ι ℝ} {d : ο → ℝ} {R : Matrix ο ο ℝ} {y : ο → ℝ} {l₀ : ℝ}
    (hP : IsGram P) (hQ : IsGram Q) (hR : IsGram R) (hd : (innovCov Q H R).det ≠ 0) {x₀ l₂ x₁ l₁ : ι → ℝ}
    (h : Chain ⟨0, m, P, 0, 0, l₀⟩ (prepC F c Q H d R y) x₀ l₂ x₁ l₁) :
    ∃ w : ο → ℝ, w = (innovCov Q H R)⁻¹ *ᵥ (y - (H *ᵥ c + d) - H *ᵥ (F *ᵥ x₁) - H *ᵥ (Q *ᵥ l₂)) ∧
      w = (innovCov (F * P * Fᵀ + Q) H R)⁻¹ *ᵥ (y - (H *ᵥ (F *ᵥ m + c) + d)
        - H *ᵥ ((F * P * Fᵀ + Q) *ᵥ l₂)) ∧
      l₁ = Fᵀ *ᵥ (l₂ + Hᵀ *ᵥ w) ∧
      (prepC F c Q H d R y).fwd x₁ l₂ = F *ᵥ m + c + (F * P * Fᵀ + Q) *ᵥ (l₂ + Hᵀ *ᵥ w) := by
  have hS0 := innovCov_gram (H := H) hQ hR
  have hSi : ((innovCov Q H R)⁻¹)ᵀ = (innovCov Q H R)⁻¹ := by
    rw [Matrix.transpose_nonsing_inv, hS0.symm]
  obtain ⟨k1, k2⟩ := h
  simp only [Matrix.zero_mulVec, zero_add] at k1
  set w := (innovCov Q H R)⁻¹ *ᵥ (y - (H *ᵥ c + d) - H *ᵥ (F *ᵥ x₁) - H *ᵥ (Q *ᵥ l₂)) with hw
  have hl : l₁ = Fᵀ *ᵥ (l₂ + Hᵀ *ᵥ w) := by
    rw [k2, hw]
    simp only [prepC, Matrix.transpose_sub, Matrix.transpose_mul, Matrix.transpose_transpose, hSi,
      hQ.symm, Matrix.sub_mulVec, Matrix.mulVec_add, Matrix.mulVec_sub, ← Matrix.mulVec_mulVec]
    abel
  have hx2 : (prepC F c Q H d R y).fwd x₁ l₂ = F *ᵥ x₁ + c + Q *ᵥ (l₂ + Hᵀ *ᵥ w) := by
    rw [hw]
    simp only [CElem.fwd, prepC, condMean, condCov, Matrix.sub_mulVec, Matrix.mulVec_add,
      Matrix.mulVec_sub, ← Matrix.mulVec_mulVec]
    abel
  have hx1 : x₁ = m + P *ᵥ (Fᵀ *ᵥ (l₂ + Hᵀ *ᵥ w)) := by rw [k1, hl]
  refine ⟨w, rfl, ?_, hl, ?_⟩
  · have hu : IsUnit (innovCov Q H R).det := isUnit_iff_ne_zero.mpr hd
    have hu' : IsUnit (innovCov (F * P * Fᵀ + Q) H R).det :=
      isUnit_iff_ne_zero.mpr (innovCov_step_det hP hQ hR hd)
    have h0 : innovCov Q H R *ᵥ w = y - (H *ᵥ c + d) - H *ᵥ (F *ᵥ x₁) - H *ᵥ (Q *ᵥ l₂) := by
      rw [hw, Matrix.mulVec_mulVec, Matrix.mul_nonsing_inv _ hu, Matrix.one_mulVec]
    have h1 : innovCov (F * P * Fᵀ + Q) H R *ᵥ w = y - (H *ᵥ (F *ᵥ m + c) + d)
        - H *ᵥ ((F * P * Fᵀ + Q) *ᵥ l₂) := by
      rw [innovCov_step, Matrix.add_mulVec, h0]
      nth_rw 1 [hx1]
      simp only [Matrix.transpose_mul, Matrix.add_mulVec, Matrix.mulVec_add, ← Matrix.mulVec_mulVec]
      abel
    rw [← h1, Matrix.mulVec_mulVec, Matrix.nonsing_inv_mul _ hu', Matrix.one_mulVec]
  · rw [hx2]
    nth_rw 1 [hx1]
    simp only [Matrix.add_mulVec, Matrix.mulVec_add, ← Matrix.mulVec_mulVec]
    abel

/-- **Predict then update.** Combining a filtering state `(m, P)` with a prepared element gives the
conditioning formulas at the predicted moments. -/
theorem op_step (m : ι → ℝ) {P : Matrix ι ι ℝ} (F : Matrix ι ι ℝ) (c : ι → ℝ) {Q : Matrix ι ι ℝ}
    (H : Matrix ο ι ℝ) (d : ο → ℝ) {R : Matrix ο ο ℝ} (y : ο → ℝ) (l₀ : ℝ)
    (hP : IsGram P) (hQ : IsGram Q) (hR : IsGram R) (hd : (innovCov Q H R).det ≠ 0) :
    CElem.op ⟨0, m, P, 0, 0, l₀⟩ (prepC F c Q H d R y) =
      ⟨0, condMean (F *ᵥ m + c) (F * P * Fᵀ + Q) H d R y, condCov (F * P * Fᵀ + Q) H R, 0, 0,
        l₀ + gaussLogDensity (H *ᵥ (F *ᵥ m + c) + d) (innovCov (F * P * Fᵀ + Q) H R) y⟩ := by
  have hv := prepC_valid (F := F) (c := c) (d := d) y hQ hR hd
  set e₁ : CElem ι := ⟨0, m, P, 0, 0, l₀⟩ with he₁
  set e₂ := prepC F c Q H d R y with he₂
  have hA : (e₁.op e₂).A = 0 := by simp [CElem.op, he₁]
  have heta : (e₁.op e₂).eta = 0 := by simp [CElem.op, he₁]
  have hJ : (e₁.op e₂).J = 0 := by simp [CElem.op, he₁]
  have hfwd : ∀ l : ι → ℝ, (0 : Matrix ι ι ℝ) *ᵥ (0 : ι → ℝ) + (e₁.op e₂).b + (e₁.op e₂).C *ᵥ l =
      (0 : Matrix ι ι ℝ) *ᵥ (0 : ι → ℝ) + condMean (F *ᵥ m + c) (F * P * Fᵀ + Q) H d R y
        + condCov (F * P * Fᵀ + Q) H R *ᵥ l := by
    intro l
    obtain ⟨x₁, l₁, hc⟩ := chain_exists e₁ e₂ hP hv.2 0 l
    obtain ⟨w, -, hw, -, hx⟩ := step_chain hP hQ hR hd hc
    have h1 := (op_eval e₁ e₂ hP hv.2 hc).1
    rw [CElem.fwd, hA] at h1
    rw [h1, hx, hw]
    simp only [condMean, condCov, Matrix.sub_mulVec, Matrix.mulVec_add, Matrix.mulVec_sub,
      ← Matrix.mulVec_mulVec, Matrix.zero_mulVec, zero_add]
    abel
  obtain ⟨-, hb, hC⟩ := eq_of_affine (A := (0 : Matrix ι ι ℝ)) (A' := (0 : Matrix ι ι ℝ))
    (b := (e₁.op e₂).b) (b' := condMean (F *ᵥ m + c) (F * P * Fᵀ + Q) H d R y)
    (C := (e₁.op e₂).C) (C' := condCov (F * P * Fᵀ + Q) H R) (by
      intro x l
      have := hfwd l
      simpa using this)
  refine CElem.ext hA hb hC heta hJ ?_
  -- log-likelihood
  obtain ⟨x₁, l₁, hc⟩ := chain_exists e₁ e₂ hP hv.2 0 0
  obtain ⟨w, hw0, hw, hl, -⟩ := step_chain hP hQ hR hd hc
  rw [op_ell e₁ e₂ hP hv.2 hc]
  simp only [zero_dotProduct, sub_zero]
  have hS0 := innovCov_gram (H := H) hQ hR
  have hS0d : 0 < (innovCov Q H R).det := (hS0.posDef hd).det_pos
  have hSd : (innovCov (F * P * Fᵀ + Q) H R).det ≠ 0 := innovCov_step_det hP hQ hR hd
  -- determinants
  have hdet : (innovCov (F * P * Fᵀ + Q) H R).det = (innovCov Q H R).det * (1 + P * e₂.J).det := by
    have hu : IsUnit (innovCov Q H R).det := isUnit_iff_ne_zero.mpr hd
    have e1 : innovCov (F * P * Fᵀ + Q) H R =
        innovCov Q H R * (1 + (innovCov Q H R)⁻¹ * (H * F) * (P * (H * F)ᵀ)) := by
      rw [innovCov_step, Matrix.mul_add, Matrix.mul_one, Matrix.mul_assoc _⁻¹,
        Matrix.mul_nonsing_inv_cancel_left _ _ hu, Matrix.mul_assoc]
    rw [e1, Matrix.det_mul, Matrix.det_one_add_mul_comm]
    congr 3
    simp only [he₂, prepC, Matrix.transpose_mul, Matrix.mul_assoc]
  have hlog : Real.log (innovCov (F * P * Fᵀ + Q) H R).det =
      Real.log (innovCov Q H R).det - Real.log (elimD e₁.C e₂.J).det := by
    have hp := det_one_add_mul_pos hP hv.2
    rw [hdet, Real.log_mul hS0d.ne' hp.ne', elimD_det hP hv.2, Real.log_inv]
    ring
  -- quadratic forms
  have hSi : ((innovCov Q H R)⁻¹)ᵀ = (innovCov Q H R)⁻¹ := by
    rw [Matrix.transpose_nonsing_inv, hS0.symm]
  simp only [Matrix.mulVec_zero, sub_zero, zero_add] at hw0 hw hl
  have q1 : (y - (H *ᵥ (F *ᵥ m + c) + d)) ⬝ᵥ
      (innovCov (F * P * Fᵀ + Q) H R)⁻¹ *ᵥ (y - (H *ᵥ (F *ᵥ m + c) + d)) =
      (y - (H *ᵥ c + d)) ⬝ᵥ w - (H *ᵥ (F *ᵥ m)) ⬝ᵥ w := by
    rw [← hw, ← sub_dotProduct]
    congr 1
    rw [Matrix.mulVec_add]; abel
  have q2 : (y - (H *ᵥ c + d)) ⬝ᵥ w = (y - (H *ᵥ c + d)) ⬝ᵥ (innovCov Q H R)⁻¹ *ᵥ (y - (H *ᵥ c + d))
      - x₁ ⬝ᵥ e₂.eta := by
    rw [hw0, Matrix.mulVec_sub, dotProduct_sub]
    congr 1
    simp only [he₂, prepC]
    rw [Matrix.dotProduct_mulVec x₁, ← Matrix.mulVec_transpose, Matrix.transpose_transpose,
      Matrix.dotProduct_mulVec (F *ᵥ x₁), ← Matrix.mulVec_transpose, Matrix.transpose_transpose,
      Matrix.dotProduct_mulVec (H *ᵥ (F *ᵥ x₁)), ← Matrix.mulVec_transpose, hSi, dotProduct_comm]
  have q3 : l₁ ⬝ᵥ m = (H *ᵥ (F *ᵥ m)) ⬝ᵥ w := by
    rw [hl, dotProduct_comm, Matrix.dotProduct_mulVec, ← Matrix.mulVec_transpose,
      Matrix.transpose_transpose, Matrix.dotProduct_mulVec, ← Matrix.mulVec_transpose,
      Matrix.transpose_transpose]
  have he2l : e₂.ell = gaussLogDensity (H *ᵥ c + d) (innovCov Q H R) y := rfl
  have hb1 : e₁.b = m := rfl
  have hl1 : e₁.ell = l₀ := rfl
  rw [he2l, hb1, hl1, q3]
  simp only [gaussLogDensity]
  rw [hlog, q1, q2]
  ring

end

end Cuthbert
