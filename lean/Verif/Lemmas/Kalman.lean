import Verif.Model.Kalman
import Verif.Lemmas.Stats
import Verif.Lemmas.KalmanStep

/-!
# The square-root Kalman code in covariance form
-/

namespace Cuthbert.Kalman
open Matrix Cuthbert

noncomputable section

set_option linter.unusedSectionVars false

variable {nx ny : ℕ} {Inp K : Type*}

/-! ## The observed part of an observation -/

theorem obsL_gram (y : Fin ny → Option ℝ) (L : Matrix (Fin ny) (Fin ny) ℝ) :
    obsL y L * (obsL y L)ᵀ = (L * Lᵀ).submatrix Subtype.val Subtype.val := rfl

theorem innovCov_obs (P : Matrix (Fin nx) (Fin nx) ℝ) (H : Matrix (Fin ny) (Fin nx) ℝ)
    (L : Matrix (Fin ny) (Fin ny) ℝ) (y : Fin ny → Option ℝ) :
    innovCov P (obsH y H) (obsL y L * (obsL y L)ᵀ) =
      (innovCov P H (L * Lᵀ)).submatrix Subtype.val Subtype.val := rfl

theorem collect_H_row (qr : QR) (H : Matrix (Fin ny) (Fin nx) ℝ) (d : Fin ny → ℝ)
    (cR : Matrix (Fin ny) (Fin ny) ℝ) (y : Fin ny → Option ℝ) (i : Fin ny) (j : Fin nx) :
    (collect qr H d cR y).H i j = if isNan y (stableArgsort (isNan y) i) then 0
      else H (stableArgsort (isNan y) i) j := by
  simp only [collect, Matrix.of_apply, collectRest]
  split_ifs <;> rfl

/-- The innovation covariance after collecting NaNs is the padded one. -/
theorem collect_innov (qr : QR) (P : Matrix (Fin nx) (Fin nx) ℝ) (H : Matrix (Fin ny) (Fin nx) ℝ)
    (d : Fin ny → ℝ) (cR : Matrix (Fin ny) (Fin ny) ℝ) (y : Fin ny → Option ℝ) (i j : Fin ny) :
    innovCov P (collect qr H d cR y).H
        ((collect qr H d cR y).cholR * ((collect qr H d cR y).cholR)ᵀ) i j =
      if isNan y (stableArgsort (isNan y) i) || isNan y (stableArgsort (isNan y) j) then
        (if i = j then 1 / (2 * Real.pi) else 0)
      else (innovCov P H (cR * cRᵀ)) (stableArgsort (isNan y) i) (stableArgsort (isNan y) j) := by
  have hcov := (collect_nans_cov qr (isNan y) cR).2 i j
  have hR : (collect qr H d cR y).cholR = collectMat qr (isNan y) cR := rfl
  rw [innovCov, Matrix.add_apply, hR, hcov]
  have hq : ∀ (i j : Fin ny), ((collect qr H d cR y).H * P * ((collect qr H d cR y).H)ᵀ) i j =
      if isNan y (stableArgsort (isNan y) i) || isNan y (stableArgsort (isNan y) j) then 0
      else (H * P * Hᵀ) (stableArgsort (isNan y) i) (stableArgsort (isNan y) j) := by
    intro i j
    rw [Matrix.mul_apply, Matrix.mul_apply]
    simp only [Matrix.mul_apply, Matrix.transpose_apply, collect_H_row]
    cases isNan y (stableArgsort (isNan y) i) <;> cases isNan y (stableArgsort (isNan y) j) <;> simp
  rw [hq]
  cases isNan y (stableArgsort (isNan y) i) <;> cases isNan y (stableArgsort (isNan y) j) <;>
    simp [innovCov]

theorem padded_quad {ν ι κ σ τ : Type*} [Fintype ν] [DecidableEq ν] [Fintype ι] [DecidableEq ι]
    [Fintype κ] [DecidableEq κ] (e : ι ⊕ κ ≃ ν) (S : Matrix ν ν ℝ) (So : Matrix ι ι ℝ) (s : ℝ)
    (hs : s ≠ 0) (hS : S.submatrix e e = fromBlocks So 0 0 (s • (1 : Matrix κ κ ℝ)))
    (hd : So.det ≠ 0) (X : Matrix ν σ ℝ) (Xo : Matrix ι σ ℝ) (Y : Matrix ν τ ℝ) (Yo : Matrix ι τ ℝ)
    (hX : ∀ i j, X (e (.inl i)) j = Xo i j) (hX0 : ∀ i j, X (e (.inr i)) j = 0)
    (hY : ∀ i j, Y (e (.inl i)) j = Yo i j) (_hY0 : ∀ i j, Y (e (.inr i)) j = 0) :
    Xᵀ * S⁻¹ * Y = Xoᵀ * So⁻¹ * Yo := by
  have hi : (S⁻¹).submatrix e e = fromBlocks So⁻¹ 0 0 (s⁻¹ • (1 : Matrix κ κ ℝ)) := by
    rw [← Matrix.inv_submatrix_equiv, hS, padded_inv So s hs hd]
  ext a b
  simp only [Matrix.mul_apply, Matrix.transpose_apply]
  rw [← Equiv.sum_comp e, Fintype.sum_sum_type]
  have h2 : ∀ j : κ, (∑ x, X x a * S⁻¹ x (e (.inr j))) * Y (e (.inr j)) b = 0 := by
    intro j; rw [_hY0, mul_zero]
  simp only [h2, Finset.sum_const_zero, add_zero]
  refine Finset.sum_congr rfl fun j _ => ?_
  rw [hY]
  congr 1
  rw [← Equiv.sum_comp e, Fintype.sum_sum_type]
  simp only [hX0, zero_mul, Finset.sum_const_zero, add_zero]
  refine Finset.sum_congr rfl fun i _ => ?_
  rw [hX]
  congr 1
  have := congrFun (congrFun hi (.inl i)) (.inl j)
  simpa using this

/-- Collected quantities reduce to the observed ones. -/
theorem collect_quad (qr : QR) (P : Matrix (Fin nx) (Fin nx) ℝ) (H : Matrix (Fin ny) (Fin nx) ℝ)
    (d : Fin ny → ℝ) (cR : Matrix (Fin ny) (Fin ny) ℝ) (y : Fin ny → Option ℝ)
    (hd : (innovCov P (obsH y H) (obsL y cR * (obsL y cR)ᵀ)).det ≠ 0) :
    let o := collect qr H d cR y
    let S := innovCov P o.H (o.cholR * o.cholRᵀ)
    let So := innovCov P (obsH y H) (obsL y cR * (obsL y cR)ᵀ)
    S.det ≠ 0 ∧ o.Hᵀ * S⁻¹ * o.H = (obsH y H)ᵀ * So⁻¹ * obsH y H ∧
    (∀ v : Fin nx → ℝ, o.Hᵀ *ᵥ (S⁻¹ *ᵥ (o.y - (o.H *ᵥ v + o.d))) =
      (obsH y H)ᵀ *ᵥ (So⁻¹ *ᵥ (obsY y - (obsH y H *ᵥ v + obsV y d)))) ∧
    (∀ v : Fin nx → ℝ, gaussLogDensity (o.H *ᵥ v + o.d) S o.y =
      gaussLogDensity (obsH y H *ᵥ v + obsV y d) So (obsY y)) := by
  intro o S So
  have hpad := collect_innov qr P H d cR y
  have hsub := padded_submatrix (isNan y) S _ hpad
  rw [innovCov_obs] at hd
  have hs : (1 / (2 * Real.pi) : ℝ) ≠ 0 := by positivity
  have hX : ∀ (i : {i : Fin ny // isNan y i = false}) j, o.H (obsEquiv (isNan y) (.inl i)) j = obsH y H i j := by
    intro i j
    rw [collect_H_row, stableArgsort_obsEquiv_inl, i.2]; rfl
  have hX0 : ∀ i j, o.H (obsEquiv (isNan y) (.inr i)) j = 0 := by
    intro i j
    rw [collect_H_row, stableArgsort_obsEquiv_inr, flag_inr (isNan y) i]; rfl
  have hHv : ∀ v : Fin nx → ℝ, o.H *ᵥ v + o.d = collectRest (isNan y) (H *ᵥ v + d) := by
    intro v
    funext i
    simp only [Pi.add_apply, Matrix.mulVec, dotProduct, collectRest, collect_H_row, o]
    have : (collect qr H d cR y).d = collectRest (isNan y) d := rfl
    rw [this, collectRest]
    split_ifs <;> simp
  refine ⟨(padded_det_ne_zero (isNan y) S _ hpad).mpr hd, ?_, ?_, ?_⟩
  · exact padded_quad (obsEquiv (isNan y)) S _ _ hs hsub hd _ _ _ _ hX hX0 hX hX0
  · intro v
    rw [hHv]
    have hY : ∀ (i : {i : Fin ny // isNan y i = false}) (j : Unit), (Matrix.of fun i (_ : Unit) =>
        (o.y - collectRest (isNan y) (H *ᵥ v + d)) i) (obsEquiv (isNan y) (.inl i)) j =
        (Matrix.of fun i (_ : Unit) => (obsY y - (obsH y H *ᵥ v + obsV y d)) i) i j := by
      intro i j
      simp only [Matrix.of_apply, Pi.sub_apply]
      rw [collectRest_inl]
      have : o.y = collectRest (isNan y) fun i => (y i).getD 0 := rfl
      rw [this, collectRest_inl]
      rfl
    have hY0 : ∀ i (j : Unit), (Matrix.of fun i (_ : Unit) =>
        (o.y - collectRest (isNan y) (H *ᵥ v + d)) i) (obsEquiv (isNan y) (.inr i)) j = 0 := by
      intro i j
      simp only [Matrix.of_apply, Pi.sub_apply]
      have : o.y = collectRest (isNan y) fun i => (y i).getD 0 := rfl
      rw [this, collectRest_inr, collectRest_inr, sub_zero]
    have h := padded_quad (obsEquiv (isNan y)) S _ _ hs hsub hd _ _ _ _ hX hX0 hY hY0
    funext a
    have ha := congrFun (congrFun h a) ()
    rw [Matrix.mulVec_mulVec, Matrix.mulVec_mulVec]
    simp only [Matrix.mul_apply, Matrix.of_apply] at ha
    simp only [Matrix.mul_apply, Matrix.mulVec, dotProduct]
    exact ha
  · intro v
    rw [hHv]
    have := gaussLogDensity_collect (isNan y) S _ hpad (H *ᵥ v + d) (fun i => (y i).getD 0) hd
    exact this

/-! ## Triangular solves -/

theorem solve_gain {a b : ℕ} {I : Matrix (Fin a) (Fin a) ℝ} {G : Matrix (Fin b) (Fin a) ℝ}
    {S : Matrix (Fin a) (Fin a) ℝ} {C : Matrix (Fin b) (Fin a) ℝ} (h1 : I * Iᵀ = S) (h2 : G * Iᵀ = C)
    (hd : S.det ≠ 0) : G * I⁻¹ = C * S⁻¹ := by
  have hI : I.det ≠ 0 := by
    intro h0; apply hd; rw [← h1, Matrix.det_mul, h0, zero_mul]
  have hu : IsUnit Iᵀ.det := by rw [Matrix.det_transpose]; exact isUnit_iff_ne_zero.mpr hI
  rw [← h2, ← h1, Matrix.mul_inv_rev, Matrix.mul_assoc, ← Matrix.mul_assoc Iᵀ,
    Matrix.mul_nonsing_inv _ hu, Matrix.one_mul]

/-- The blocks computed from `[[H A, B], [A, 0]]`. -/
theorem triaBlocks (qr : QR) (H : Matrix (Fin ny) (Fin nx) ℝ) (A : Matrix (Fin nx) (Fin nx) ℝ)
    (B : Matrix (Fin ny) (Fin ny) ℝ) (T : Matrix (Fin (ny + nx)) (Fin (ny + nx)) ℝ)
    (hT : T = triaSq qr (block (H * A) B A 0) (Nat.add_comm _ _).le) :
    topLeft T * (topLeft T)ᵀ = innovCov (A * Aᵀ) H (B * Bᵀ) ∧
    bottomLeft T * (topLeft T)ᵀ = A * Aᵀ * Hᵀ ∧
    IsLower (topLeft T) ∧ IsLower (bottomRight T) ∧
    ((innovCov (A * Aᵀ) H (B * Bᵀ)).det ≠ 0 →
      (∀ i, topLeft T i i ≠ 0) ∧ lowerPart (topLeft T) = topLeft T ∧
      bottomLeft T * (topLeft T)⁻¹ = A * Aᵀ * Hᵀ * (innovCov (A * Aᵀ) H (B * Bᵀ))⁻¹ ∧
      bottomRight T * (bottomRight T)ᵀ = condCov (A * Aᵀ) H (B * Bᵀ)) ∧
    ((innovCov (A * Aᵀ) H (B * Bᵀ)).det = 0 → ¬ ∀ i, topLeft T i i ≠ 0) := by
  obtain ⟨h1, h2, h3, h4, h5⟩ := triaSq_block_eqs qr (H * A) B A 0 _ T hT
  have e1 : topLeft T * (topLeft T)ᵀ = innovCov (A * Aᵀ) H (B * Bᵀ) := by
    rw [h1, innovCov, Matrix.transpose_mul]; simp only [Matrix.mul_assoc]
  have e2 : bottomLeft T * (topLeft T)ᵀ = A * Aᵀ * Hᵀ := by
    rw [h2, Matrix.zero_mul, add_zero, Matrix.transpose_mul, Matrix.mul_assoc]
  refine ⟨e1, e2, h4, h5, fun hd => ?_, fun hd => ?_⟩
  · have hg := solve_gain e1 e2 hd
    refine ⟨h4.diag_ne_zero_iff_gram.mpr (by rw [e1]; exact hd), lowerPart_eq h4, hg, ?_⟩
    have hI : (topLeft T).det ≠ 0 := by
      intro h0; apply hd; rw [← e1, Matrix.det_mul, h0, zero_mul]
    have hu : IsUnit (topLeft T).det := isUnit_iff_ne_zero.mpr hI
    have hG : bottomLeft T = A * Aᵀ * Hᵀ * (innovCov (A * Aᵀ) H (B * Bᵀ))⁻¹ * topLeft T := by
      rw [← hg, Matrix.mul_assoc, Matrix.nonsing_inv_mul _ hu, Matrix.mul_one]
    obtain ⟨g1, g2⟩ := gain_eqs' H (isGram_of A) (isGram_of B) hd
    have e3 : bottomLeft T * (bottomLeft T)ᵀ = A * Aᵀ * Hᵀ *
        (innovCov (A * Aᵀ) H (B * Bᵀ))⁻¹ * innovCov (A * Aᵀ) H (B * Bᵀ) *
        (A * Aᵀ * Hᵀ * (innovCov (A * Aᵀ) H (B * Bᵀ))⁻¹)ᵀ := by
      conv_lhs => rw [hG]
      rw [Matrix.transpose_mul]
      rw [← e1]
      simp only [Matrix.mul_assoc]
    rw [e3, Matrix.transpose_zero, Matrix.mul_zero, add_zero] at h3
    exact add_left_cancel (h3.trans g2.symm)
  · rw [h4.diag_ne_zero_iff_gram, e1]
    exact not_not.mpr hd
where
  gain_eqs' {P : Matrix (Fin nx) (Fin nx) ℝ} (H : Matrix (Fin ny) (Fin nx) ℝ)
      {R : Matrix (Fin ny) (Fin ny) ℝ} (hP : IsGram P) (hR : IsGram R) (hd : (innovCov P H R).det ≠ 0) :
      (P * Hᵀ * (innovCov P H R)⁻¹) * innovCov P H R = P * Hᵀ ∧
      (P * Hᵀ * (innovCov P H R)⁻¹) * innovCov P H R * (P * Hᵀ * (innovCov P H R)⁻¹)ᵀ + condCov P H R
        = P := by
    have hu : IsUnit (innovCov P H R).det := isUnit_iff_ne_zero.mpr hd
    have hs := (innovCov_gram (H := H) hP hR).symm
    have h1 : (P * Hᵀ * (innovCov P H R)⁻¹) * innovCov P H R = P * Hᵀ := by
      rw [Matrix.mul_assoc, Matrix.nonsing_inv_mul _ hu, Matrix.mul_one]
    refine ⟨h1, ?_⟩
    rw [h1, condCov, Matrix.transpose_mul, Matrix.transpose_mul, Matrix.transpose_transpose,
      Matrix.transpose_nonsing_inv, hs, hP.symm]
    simp only [Matrix.mul_assoc]
    abel

/-! ## `update` in covariance form -/

/-- `update` computes the conditioning formulas for the observed components. -/
theorem update_eq (qr : QR) (m : Fin nx → ℝ) (cP : Matrix (Fin nx) (Fin nx) ℝ)
    (H : Matrix (Fin ny) (Fin nx) ℝ) (d : Fin ny → ℝ) (cR : Matrix (Fin ny) (Fin ny) ℝ)
    (y : Fin ny → Option ℝ) (l₀ : ℝ)
    (hd : (innovCov (cP * cPᵀ) (obsH y H) (obsL y cR * (obsL y cR)ᵀ)).det ≠ 0) :
    (update qr m cP H d cR y (some l₀)).mean =
      some (condMean m (cP * cPᵀ) (obsH y H) (obsV y d) (obsL y cR * (obsL y cR)ᵀ) (obsY y)) ∧
    (update qr m cP H d cR y (some l₀)).chol * ((update qr m cP H d cR y (some l₀)).chol)ᵀ =
      condCov (cP * cPᵀ) (obsH y H) (obsL y cR * (obsL y cR)ᵀ) ∧
    IsLower (update qr m cP H d cR y (some l₀)).chol ∧
    (update qr m cP H d cR y (some l₀)).ell =
      some (gaussLogDensity (obsH y H *ᵥ m + obsV y d)
        (innovCov (cP * cPᵀ) (obsH y H) (obsL y cR * (obsL y cR)ᵀ)) (obsY y) + l₀) := by
  obtain ⟨hSd, hquad, hvec, hell⟩ := collect_quad qr (cP * cPᵀ) H d cR y hd
  obtain ⟨T, hT⟩ : ∃ T, T = triaSq qr (block ((collect qr H d cR y).H * cP)
    (collect qr H d cR y).cholR cP 0) (Nat.add_comm _ _).le := ⟨_, rfl⟩
  obtain ⟨e1, -, hl, hlow, hgood, -⟩ := triaBlocks qr _ cP _ T hT
  obtain ⟨hdiag, hlp, hgain, hcov⟩ := hgood hSd
  refine ⟨?_, ?_, ?_, ?_⟩
  · simp only [update]
    rw [← hT, solveLowerVec, if_pos hdiag, Option.map_some, hlp, Matrix.mulVec_mulVec, hgain]
    congr 1
    rw [condMean, ← hvec m]
    congr 1
    simp only [Matrix.mulVec_mulVec, Matrix.mul_assoc]
  · have : (update qr m cP H d cR y (some l₀)).chol = bottomRight T := by rw [hT]; rfl
    rw [this, hcov, condCov, condCov, hquad]
  · have : (update qr m cP H d cR y (some l₀)).chol = bottomRight T := by rw [hT]; rfl
    rw [this]; exact hlow
  · have : (update qr m cP H d cR y (some l₀)).ell = (do
        let l ← logpdfMat (collect qr H d cR y).y ((collect qr H d cR y).H *ᵥ m
          + (collect qr H d cR y).d) (topLeft T)
        let l₀ ← some l₀
        return l + l₀) := by rw [hT]; rfl
    rw [this, logpdfMat_eq _ _ _ hl (by rw [e1]; exact hSd), e1, hell m]
    rfl

/-- With a singular innovation covariance `update` has no finite mean. -/
theorem update_none (qr : QR) (m : Fin nx → ℝ) (cP : Matrix (Fin nx) (Fin nx) ℝ)
    (H : Matrix (Fin ny) (Fin nx) ℝ) (d : Fin ny → ℝ) (cR : Matrix (Fin ny) (Fin ny) ℝ)
    (y : Fin ny → Option ℝ) (l₀ : Option ℝ)
    (hd : (innovCov (cP * cPᵀ) (obsH y H) (obsL y cR * (obsL y cR)ᵀ)).det = 0) :
    (update qr m cP H d cR y l₀).mean = none ∧ (update qr m cP H d cR y l₀).ell = none := by
  have hSd : (innovCov (cP * cPᵀ) (collect qr H d cR y).H ((collect qr H d cR y).cholR *
      ((collect qr H d cR y).cholR)ᵀ)).det = 0 := by
    by_contra h
    have := (padded_det_ne_zero (isNan y) _ _ (collect_innov qr (cP * cPᵀ) H d cR y)).mp h
    exact this hd
  obtain ⟨T, hT⟩ : ∃ T, T = triaSq qr (block ((collect qr H d cR y).H * cP)
    (collect qr H d cR y).cholR cP 0) (Nat.add_comm _ _).le := ⟨_, rfl⟩
  obtain ⟨e1, -, hl, -, -, hbad⟩ := triaBlocks qr _ cP _ T hT
  constructor
  · simp only [update]
    rw [← hT, solveLowerVec, if_neg (hbad hSd), Option.map_none]
  · simp only [update]
    rw [← hT, logpdfMat_none _ _ _ hl (by rw [e1]; exact hSd)]
    rfl

/-- `predict` in covariance form. -/
theorem predict_gram (qr : QR) (m : Fin nx → ℝ) (cP : Matrix (Fin nx) (Fin nx) ℝ)
    {nx' : ℕ} (F : Matrix (Fin nx') (Fin nx) ℝ) (c : Fin nx' → ℝ) (cQ : Matrix (Fin nx') (Fin nx') ℝ) :
    (predict qr m cP F c cQ).2 * ((predict qr m cP F c cQ).2)ᵀ =
      F * (cP * cPᵀ) * Fᵀ + cQ * cQᵀ := by
  simp only [predict]
  rw [triaSq_gram, hcat_gram, Matrix.transpose_mul]
  simp only [Matrix.mul_assoc]

/-! ## The scan elements in covariance form -/

/-- `e` represents the covariance-form element `c` (all but the log-likelihood). -/
structure Repr (e : FilterElem nx) (c : CElem (Fin nx)) : Prop where
  A : e.A = c.A
  b : e.b = c.b
  C : e.U * e.Uᵀ = c.C
  eta : e.eta = c.eta
  J : e.Z * e.Zᵀ = c.J

theorem Repr.valid {e : FilterElem nx} {c : CElem (Fin nx)} (h : Repr e c) : c.Valid :=
  ⟨⟨e.U, h.C.symm⟩, ⟨e.Z, h.J.symm⟩⟩

theorem squareZ_gram (qr : QR) (Z : Matrix (Fin nx) (Fin ny) ℝ) :
    squareZ qr Z * (squareZ qr Z)ᵀ = Z * Zᵀ := by
  unfold squareZ
  split_ifs with h
  · ext i j
    simp only [Matrix.mul_apply, Matrix.transpose_apply, Matrix.of_apply]
    have hinj : Function.Injective (Fin.castLE h.le) := Fin.castLE_injective h.le
    rw [← Finset.sum_subset (Finset.subset_univ (Finset.univ.map ⟨_, hinj⟩))]
    · rw [Finset.sum_map]
      refine Finset.sum_congr rfl fun k _ => ?_
      simp
    · intro x _ hx
      have : ¬ x.val < ny := by
        intro hlt
        apply hx
        rw [Finset.mem_map]
        exact ⟨⟨x.val, hlt⟩, Finset.mem_univ _, rfl⟩
      simp [this]
  · exact triaSq_gram qr Z _

/-- The prepared element is the covariance-form one of the observed components. -/
theorem filterParams_eq (qr : QR) (F : Matrix (Fin nx) (Fin nx) ℝ) (c : Fin nx → ℝ)
    (cQ : Matrix (Fin nx) (Fin nx) ℝ) (H : Matrix (Fin ny) (Fin nx) ℝ) (d : Fin ny → ℝ)
    (cR : Matrix (Fin ny) (Fin ny) ℝ) (y : Fin ny → Option ℝ)
    (hd : (innovCov (cQ * cQᵀ) (obsH y H) (obsL y cR * (obsL y cR)ᵀ)).det ≠ 0) :
    ∃ e, filterParams qr F c cQ H d cR y = some e ∧
      Repr e (prepC F c (cQ * cQᵀ) (obsH y H) (obsV y d) (obsL y cR * (obsL y cR)ᵀ) (obsY y)) ∧
      e.ell = some (prepC F c (cQ * cQᵀ) (obsH y H) (obsV y d) (obsL y cR * (obsL y cR)ᵀ)
        (obsY y)).ell ∧ IsLower e.U := by
  obtain ⟨hSd, hquad, hvec, hell⟩ := collect_quad qr (cQ * cQᵀ) H d cR y hd
  obtain ⟨T, hT⟩ : ∃ T, T = triaSq qr (block ((collect qr H d cR y).H * cQ)
    (collect qr H d cR y).cholR cQ 0) (Nat.add_comm _ _).le := ⟨_, rfl⟩
  obtain ⟨e1, -, hl, hlow, hgood, -⟩ := triaBlocks qr _ cQ _ T hT
  obtain ⟨hdiag, hlp, hgain, hcov⟩ := hgood hSd
  simp only [filterParams]
  rw [← hT, solveLower, if_pos hdiag, Option.map_some, hlp, Matrix.mul_one]
  refine ⟨_, rfl, ⟨?_, ?_, ?_, ?_, ?_⟩, ?_, hlow⟩
  · simp only [prepC]
    rw [hgain, ← hquad]
    simp only [Matrix.mul_assoc]
  · simp only [prepC, condMean]
    rw [hgain, ← hvec c, sub_sub]
    simp only [Matrix.mulVec_mulVec, Matrix.mul_assoc]
  · simp only [prepC]
    rw [hcov, condCov, condCov, hquad]
  · simp only [prepC]
    rw [← hvec c, sub_sub, ← e1]
    rw [Matrix.mul_inv_rev, Matrix.transpose_mul, Matrix.transpose_nonsing_inv]
    simp only [Matrix.mulVec_mulVec, Matrix.mul_assoc]
  · simp only [prepC]
    rw [squareZ_gram, ← hquad, ← e1, Matrix.mul_inv_rev]
    simp only [Matrix.transpose_mul, Matrix.transpose_transpose, Matrix.transpose_nonsing_inv,
      Matrix.mul_assoc]
  · simp only [prepC]
    rw [logpdfMat_eq _ _ _ hl (by rw [e1]; exact hSd), e1, hell c]

theorem filterParams_none (qr : QR) (F : Matrix (Fin nx) (Fin nx) ℝ) (c : Fin nx → ℝ)
    (cQ : Matrix (Fin nx) (Fin nx) ℝ) (H : Matrix (Fin ny) (Fin nx) ℝ) (d : Fin ny → ℝ)
    (cR : Matrix (Fin ny) (Fin ny) ℝ) (y : Fin ny → Option ℝ)
    (hd : (innovCov (cQ * cQᵀ) (obsH y H) (obsL y cR * (obsL y cR)ᵀ)).det = 0) :
    filterParams qr F c cQ H d cR y = none := by
  have hSd : (innovCov (cQ * cQᵀ) (collect qr H d cR y).H ((collect qr H d cR y).cholR *
      ((collect qr H d cR y).cholR)ᵀ)).det = 0 := by
    by_contra h
    have := (padded_det_ne_zero (isNan y) _ _ (collect_innov qr (cQ * cQᵀ) H d cR y)).mp h
    exact this hd
  obtain ⟨T, hT⟩ : ∃ T, T = triaSq qr (block ((collect qr H d cR y).H * cQ)
    (collect qr H d cR y).cholR cQ 0) (Nat.add_comm _ _).le := ⟨_, rfl⟩
  obtain ⟨-, -, -, -, -, hbad⟩ := triaBlocks qr _ cQ _ T hT
  simp only [filterParams]
  rw [← hT, solveLower, if_neg (hbad hSd), Option.map_none]

/-- The square-root operator computes the covariance-form combination; it never fails. -/
theorem filteringOperator_eq (qr : QR) {e₁ e₂ : FilterElem nx} {c₁ c₂ : CElem (Fin nx)}
    (h₁ : Repr e₁ c₁) (h₂ : Repr e₂ c₂) :
    ∃ e, filteringOperator qr e₁ e₂ = some e ∧ Repr e (c₁.op c₂) ∧ IsLower e.U ∧
      (∀ l₁ l₂, e₁.ell = some l₁ → e₂.ell = some l₂ → IsLower e₁.U → (∀ i, e₁.U i i ≠ 0) →
        e.ell = some (CElem.op { c₁ with ell := l₁ } { c₂ with ell := l₂ }).ell) ∧
      ((∃ i, e₁.U i i = 0) → e.ell = none) ∧ (e₁.ell = none → e.ell = none) ∧
      (e₂.ell = none → e.ell = none) := by
  obtain ⟨T, hT⟩ : ∃ T, T = triaSq qr (block (e₁.Uᵀ * e₂.Z) 1 e₂.Z 0) le_rfl := ⟨_, rfl⟩
  obtain ⟨b1, b2, b3, b4, -⟩ := triaSq_block_eqs qr (e₁.Uᵀ * e₂.Z) 1 e₂.Z 0 _ T hT
  have hG : topLeft T * (topLeft T)ᵀ = 1 + (e₁.Uᵀ * e₂.Z) * (e₁.Uᵀ * e₂.Z)ᵀ := by
    rw [b1, Matrix.transpose_one, Matrix.mul_one, add_comm]
  have hGd : (topLeft T * (topLeft T)ᵀ).det ≠ 0 := by rw [hG]; exact (det_one_add_gram_pos _).ne'
  have hdiag : ∀ i, topLeft T i i ≠ 0 := b4.diag_ne_zero_iff_gram.mpr hGd
  have hXd : (topLeft T).det ≠ 0 := b4.det_ne_zero_iff.mpr hdiag
  have hXu : IsUnit (topLeft T).det := isUnit_iff_ne_zero.mpr hXd
  have hXtu : IsUnit ((topLeft T)ᵀ).det := by rw [Matrix.det_transpose]; exact hXu
  -- notation
  obtain ⟨X, hX⟩ : ∃ X, X = topLeft T := ⟨_, rfl⟩
  obtain ⟨Y, hY⟩ : ∃ Y, Y = bottomLeft T := ⟨_, rfl⟩
  obtain ⟨W, hW⟩ : ∃ W, W = bottomRight T := ⟨_, rfl⟩
  obtain ⟨U, hU⟩ : ∃ U, U = e₁.U := ⟨_, rfl⟩
  obtain ⟨J, hJ⟩ : ∃ J, J = e₂.Z * e₂.Zᵀ := ⟨_, rfl⟩
  obtain ⟨C, hC⟩ : ∃ C, C = U * Uᵀ := ⟨_, rfl⟩
  have hCg : IsGram C := ⟨U, hC⟩
  have hJg : IsGram J := ⟨e₂.Z, hJ⟩
  rw [← hX] at hG hXu hXtu b2
  rw [← hY] at b2 b3
  rw [← hW] at b3
  rw [← hU] at hG b2
  have hG' : X * Xᵀ = 1 + Uᵀ * J * U := by
    rw [hG, hJ, Matrix.transpose_mul, Matrix.transpose_transpose]; simp only [Matrix.mul_assoc]
  have hY' : Y * Xᵀ = J * U := by
    rw [b2, hJ, Matrix.zero_mul, add_zero, Matrix.transpose_mul, Matrix.transpose_transpose,
      Matrix.mul_assoc]
  have hYW : Y * Yᵀ + W * Wᵀ = J := by
    rw [b3, hJ, Matrix.transpose_zero, Matrix.mul_zero, add_zero]
  -- Y = J U X⁻ᵀ
  have hYe : Y = J * U * (X⁻¹)ᵀ := by
    rw [← hY', Matrix.mul_assoc, Matrix.transpose_nonsing_inv, Matrix.mul_nonsing_inv _ hXtu,
      Matrix.mul_one]
  have hYt : Yᵀ = X⁻¹ * (Uᵀ * J) := by
    rw [hYe, Matrix.transpose_mul, Matrix.transpose_transpose, Matrix.transpose_mul, hJg.symm]
  -- `M = tmp1 tmp1ᵀ`
  obtain ⟨M, hM⟩ : ∃ M, M = (X⁻¹ * Uᵀ)ᵀ * (X⁻¹ * Uᵀ) := ⟨_, rfl⟩
  have hXX : (X⁻¹)ᵀ * X⁻¹ = (X * Xᵀ)⁻¹ := by
    rw [Matrix.mul_inv_rev, Matrix.transpose_nonsing_inv]
  have hM' : M = U * (X * Xᵀ)⁻¹ * Uᵀ := by
    rw [hM, Matrix.transpose_mul, Matrix.transpose_transpose, ← hXX]; simp only [Matrix.mul_assoc]
  have hXXu : IsUnit (X * Xᵀ).det := by
    rw [Matrix.det_mul]; exact hXu.mul hXtu
  -- `(1 + C J) (1 - M J) = 1`
  have hDeq : (1 : Matrix (Fin nx) (Fin nx) ℝ) - (X⁻¹ * Uᵀ)ᵀ * Yᵀ = elimD C J := by
    have h1 : (X⁻¹ * Uᵀ)ᵀ * Yᵀ = M * J := by
      rw [hYt, hM]; simp only [Matrix.mul_assoc]
    rw [h1]
    symm
    apply Matrix.inv_eq_right_inv
    have h2 : C * J * (M * J) = C * J - M * J := by
      have h3 : Uᵀ * J * U = X * Xᵀ - 1 := by rw [hG']; abel
      have h4 : C * J * M = C - M := by
        rw [hM', hC]
        have : U * Uᵀ * J * (U * (X * Xᵀ)⁻¹ * Uᵀ) = U * ((Uᵀ * J * U) * (X * Xᵀ)⁻¹) * Uᵀ := by
          simp only [Matrix.mul_assoc]
        rw [this, h3, Matrix.sub_mul, Matrix.mul_nonsing_inv _ hXXu, Matrix.one_mul, Matrix.mul_sub,
          Matrix.mul_one, Matrix.sub_mul]
      rw [← Matrix.mul_assoc, h4, Matrix.sub_mul]
    rw [Matrix.mul_sub, Matrix.mul_one, Matrix.add_mul, Matrix.one_mul, h2]
    abel
  have hMD : M = elimD C J * C := by
    rw [← hDeq]
    have h1 : (X⁻¹ * Uᵀ)ᵀ * Yᵀ = M * J := by
      rw [hYt, hM]; simp only [Matrix.mul_assoc]
    rw [h1, Matrix.sub_mul, Matrix.one_mul]
    have h3 : Uᵀ * J * U = X * Xᵀ - 1 := by rw [hG']; abel
    have h4 : M * J * C = C - M := by
      rw [hM', hC]
      have : U * (X * Xᵀ)⁻¹ * Uᵀ * J * (U * Uᵀ) = U * ((X * Xᵀ)⁻¹ * (Uᵀ * J * U)) * Uᵀ := by
        simp only [Matrix.mul_assoc]
      rw [this, h3, Matrix.mul_sub, Matrix.nonsing_inv_mul _ hXXu, Matrix.mul_one, Matrix.mul_sub,
        Matrix.mul_one, Matrix.sub_mul]
    rw [h4]; abel
  have hWW : W * Wᵀ = J * elimD C J := by
    have h1 : Y * Yᵀ = J * M * J := by
      rw [hYe, Matrix.transpose_mul, Matrix.transpose_transpose, Matrix.transpose_mul, hJg.symm, hM',
        ← hXX]
      simp only [Matrix.mul_assoc]
    have h2 : (X⁻¹ * Uᵀ)ᵀ * Yᵀ = M * J := by
      rw [hYt, hM]; simp only [Matrix.mul_assoc]
    have h3 : W * Wᵀ = J - Y * Yᵀ := by rw [← hYW]; abel
    rw [h3, h1, ← hDeq, h2, Matrix.mul_sub, Matrix.mul_one, Matrix.mul_assoc]
  -- conclude
  have hcC : c₁.C = C := by rw [← h₁.C, hC, hU]
  have hcJ : c₂.J = J := by rw [← h₂.J, hJ]
  have hUU : ∀ v : Fin nx → ℝ, e₁.U *ᵥ (e₁.Uᵀ *ᵥ v) = C *ᵥ v := by
    intro v; rw [Matrix.mulVec_mulVec, hC, hU]
  have hZZ : ∀ v : Fin nx → ℝ, e₂.Z *ᵥ (e₂.Zᵀ *ᵥ v) = J *ᵥ v := by
    intro v; rw [Matrix.mulVec_mulVec, hJ]
  have hD' : (1 : Matrix (Fin nx) (Fin nx) ℝ) - (X⁻¹ * e₁.Uᵀ)ᵀ * Yᵀ = elimD C J := by
    rw [← hU]; exact hDeq
  have hrun : filteringOperator qr e₁ e₂ = some
      { A := e₂.A * elimD C J * e₁.A
        b := e₂.A *ᵥ (elimD C J *ᵥ (e₁.b + C *ᵥ e₂.eta)) + e₂.b
        U := triaSq qr (hcat (e₂.A * (X⁻¹ * e₁.Uᵀ)ᵀ) e₂.U) (Nat.le_add_left _ _)
        eta := e₁.Aᵀ *ᵥ ((elimD C J)ᵀ *ᵥ (e₂.eta - J *ᵥ e₁.b)) + e₁.eta
        Z := triaSq qr (hcat (e₁.Aᵀ * W) e₁.Z) (Nat.le_add_left _ _)
        ell := do
          let mu ← choSolve e₁.U e₁.b
          let t1 := e₁.b ⬝ᵥ mu - (e₂.eta + mu) ⬝ᵥ (elimD C J *ᵥ (e₁.b + C *ᵥ e₂.eta))
          let l₁ ← e₁.ell
          let l₂ ← e₂.ell
          let ld ← slogdet (elimD C J)
          return l₁ + l₂ - 1 / 2 * t1 + 1 / 2 * ld } := by
    simp only [filteringOperator]
    rw [← hT, solveLower, if_pos hdiag, lowerPart_eq b4, Option.map_some, ← hX, ← hY, ← hW]
    simp only [hD', hUU, hZZ]
  refine ⟨_, hrun, ⟨?_, ?_, ?_, ?_, ?_⟩, triaSq_lower qr _ (Nat.le_add_left _ _), ?_, ?_, ?_, ?_⟩
  · simp only [CElem.op, hcC, hcJ, h₁.A, h₂.A]
  · simp only [CElem.op, hcC, hcJ, h₁.b, h₂.A, h₂.b, h₂.eta]
  · rw [triaSq_gram, hcat_gram]
    simp only [CElem.op, hcC, hcJ, ← h₂.A, ← h₂.C]
    rw [← hMD, hM, hU]
    simp only [Matrix.mul_assoc, Matrix.transpose_mul, Matrix.transpose_transpose]
  · simp only [CElem.op, hcC, hcJ, h₁.b, h₁.A, h₁.eta, h₂.eta]
  · rw [triaSq_gram, hcat_gram]
    simp only [CElem.op, hcC, hcJ, ← h₁.A, ← h₁.J]
    rw [Matrix.transpose_mul, Matrix.transpose_transpose, ← hWW]
    simp only [Matrix.mul_assoc]
  · intro l₁ l₂ hl₁ hl₂ hlow hdU
    have hUd : e₁.U.det ≠ 0 := hlow.det_ne_zero_iff.mpr hdU
    have hCd : C.det ≠ 0 := by
      rw [hC, hU, Matrix.det_mul, Matrix.det_transpose]; exact mul_ne_zero hUd hUd
    have hCu : IsUnit C.det := isUnit_iff_ne_zero.mpr hCd
    have hpos := det_one_add_mul_pos hCg hJg
    have hDd : (elimD C J).det ≠ 0 := by rw [elimD_det hCg hJg]; exact inv_ne_zero hpos.ne'
    have hDpos : 0 < (elimD C J).det := by rw [elimD_det hCg hJg]; exact inv_pos.mpr hpos
    have hcs : choSolve e₁.U e₁.b = some (C⁻¹ *ᵥ e₁.b) := by
      rw [choSolve, if_pos hdU, lowerPart_eq hlow, ← hU, ← hC]
    have hsl : slogdet (elimD C J) = some (Real.log (elimD C J).det) := by
      rw [slogdet, if_neg hDd, abs_of_pos hDpos]
    simp only [hcs, hl₁, hl₂, hsl]
    refine congrArg some ?_
    simp only [CElem.op, hcC, hcJ]
    rw [← h₁.b, ← h₂.eta]
    obtain ⟨t, ht⟩ : ∃ t, t = elimD C J *ᵥ (e₁.b + C *ᵥ e₂.eta) := ⟨_, rfl⟩
    rw [← ht]
    -- t = b + C (eta - J t)
    have hte : t = e₁.b + C *ᵥ (e₂.eta - J *ᵥ t) := by
      have h := congrArg (fun N => N *ᵥ (e₁.b + C *ᵥ e₂.eta)) (elimD_right hCg hJg)
      simp only [Matrix.one_mulVec, ← Matrix.mulVec_mulVec, ← ht, Matrix.add_mulVec] at h
      rw [Matrix.mulVec_sub]
      rw [← add_sub_assoc, ← h]
      abel
    have hmu : (C⁻¹ *ᵥ e₁.b) ⬝ᵥ t - e₁.b ⬝ᵥ (C⁻¹ *ᵥ e₁.b) = (e₂.eta - J *ᵥ t) ⬝ᵥ e₁.b := by
      have hCt : (C⁻¹)ᵀ = C⁻¹ := by rw [Matrix.transpose_nonsing_inv, hCg.symm]
      have : (C⁻¹ *ᵥ e₁.b) ⬝ᵥ t = (C⁻¹ *ᵥ e₁.b) ⬝ᵥ e₁.b + (e₂.eta - J *ᵥ t) ⬝ᵥ e₁.b := by
        conv_lhs => rw [hte]
        rw [dotProduct_add, Matrix.dotProduct_mulVec _ C, ← Matrix.mulVec_transpose, hCg.symm,
          Matrix.mulVec_mulVec, Matrix.mul_nonsing_inv _ hCu, Matrix.one_mulVec,
          dotProduct_comm e₁.b (e₂.eta - _)]
      rw [this, dotProduct_comm (C⁻¹ *ᵥ e₁.b) e₁.b]
      ring
    rw [add_dotProduct, ← hmu]
    ring
  · rintro ⟨i, hi⟩
    have : choSolve e₁.U e₁.b = none := by
      rw [choSolve, if_neg]; exact fun h => h i hi
    simp [this]
  · intro h
    simp only [h]
    cases choSolve e₁.U e₁.b <;> rfl
  · intro h
    simp only [h]
    cases choSolve e₁.U e₁.b <;> cases e₁.ell <;> rfl

end

end Cuthbert.Kalman
