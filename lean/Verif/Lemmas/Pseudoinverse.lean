import Verif.Spec.Pseudoinverse
import Verif.Lemmas.Linearize

/-!
# `symmetric_inv_sqrt` of singular matrices
-/

namespace Cuthbert
open Matrix Cuthbert.Spec

noncomputable section

variable {n : ℕ}

theorem _root_.Cuthbert.Spec.IsPinv.ker {ι : Type*} [Fintype ι] {A C : Matrix ι ι ℝ} (h : IsPinv A C) (hA : A.IsSymm)
    (hC : C.IsSymm) (v : ι → ℝ) (hv : A *ᵥ v = 0) : C *ᵥ v = 0 := by
  have : C = C * (C * A) := by
    conv_lhs => rw [← h.cac, Matrix.mul_assoc, ← h.ac, Matrix.transpose_mul, hA, hC]
  rw [this, ← Matrix.mulVec_mulVec, ← Matrix.mulVec_mulVec, hv, Matrix.mulVec_zero, Matrix.mulVec_zero]

theorem _root_.Cuthbert.Spec.IsPinv.symm {ι : Type*} [Fintype ι] {A C : Matrix ι ι ℝ} (h : IsPinv A C) : IsPinv C A :=
  ⟨h.cac, h.aca, h.ca, h.ac⟩

theorem _root_.Cuthbert.Spec.SemiConditioned.isAbs {ι : Type*} [Fintype ι] {rtol : ℝ} (hr : 0 ≤ rtol) {A : Matrix ι ι ℝ}
    (h : SemiConditioned rtol A) : IsAbs A A := by
  intro v μ hv
  by_cases h0 : v = 0
  · rw [h0, Matrix.mulVec_zero, smul_zero]
  · obtain ⟨-, hi, hhi, hg⟩ := h
    rw [hv, abs_of_nonneg]
    rcases hg v μ h0 hv with h1 | h1
    · exact h1.ge
    · exact ((mul_nonneg hr hhi.le).trans_lt h1.1).le

/-- The eigendecomposition of the absolute value. -/
theorem _root_.Cuthbert.Spec.IsAbs.factor {S B : Matrix (Fin n) (Fin n) ℝ} (svd : SVD) (hS : S.IsSymm) (h : IsAbs S B) :
    B = svd.u S * Matrix.diagonal (svd.s S) * (svd.u S)ᵀ ∧ ∀ i, B *ᵥ (fun r => svd.u S r i) = svd.s S i • fun r => svd.u S r i := by
  obtain ⟨u, hu⟩ : ∃ u, u = svd.u S := ⟨_, rfl⟩
  obtain ⟨d, hd⟩ : ∃ d : Fin n → ℝ, d = fun i => svd.sign S i * svd.s S i := ⟨_, rfl⟩
  have ho : uᵀ * u = 1 := by rw [hu]; exact svd.orthogonal S
  have hf : u * Matrix.diagonal d * uᵀ = S := by rw [hu, hd]; exact svd.factor S hS
  have heig : S * u = u * Matrix.diagonal d := by
    rw [← hf, Matrix.mul_assoc, ho, Matrix.mul_one]
  have hcol : ∀ i, S *ᵥ (fun r => u r i) = d i • fun r => u r i := by
    intro i
    funext r
    have := congrFun (congrFun heig r) i
    rw [Matrix.mul_diagonal, Matrix.mul_apply] at this
    rw [Pi.smul_apply, smul_eq_mul, mul_comm (d i), ← this]
    rfl
  have hds : ∀ i, |d i| = svd.s S i := fun i => by
    rw [hd]
    simp only []
    rw [abs_mul, abs_of_nonneg (svd.nonneg S i)]
    rcases svd.sign_abs S i with h1 | h1 <;> rw [h1] <;> simp
  have hB : ∀ i, B *ᵥ (fun r => u r i) = svd.s S i • fun r => u r i := fun i => by
    rw [← hds]; exact h _ _ (hcol i)
  rw [← hu]
  refine ⟨?_, hB⟩
  have hBu : B * u = u * Matrix.diagonal (svd.s S) := by
    ext r i
    have := congrFun (hB i) r
    rw [Matrix.mul_diagonal, Matrix.mul_apply, mul_comm]
    exact this
  rw [← hBu, Matrix.mul_assoc, mul_eq_one_comm.mp ho, Matrix.mul_one]

theorem _root_.Cuthbert.Spec.IsAbs.ker {S B : Matrix (Fin n) (Fin n) ℝ} (svd : SVD) (hS : S.IsSymm) (h : IsAbs S B)
    (v : Fin n → ℝ) : S *ᵥ v = 0 ↔ B *ᵥ v = 0 := by
  refine ⟨fun h0 => ?_, fun h0 => ?_⟩
  · have := h v 0 (by rw [h0, zero_smul])
    rwa [abs_zero, zero_smul] at this
  · have ho := svd.orthogonal S
    have h1 : Matrix.diagonal (svd.s S) *ᵥ ((svd.u S)ᵀ *ᵥ v) = 0 := by
      have h2 := congrArg (fun z => (svd.u S)ᵀ *ᵥ z) h0
      rwa [(h.factor svd hS).1, Matrix.mulVec_zero, Matrix.mulVec_mulVec, Matrix.mul_assoc, ← Matrix.mul_assoc _ (svd.u S),
        ho, Matrix.one_mul, ← Matrix.mulVec_mulVec] at h2
    rw [← svd.factor S hS, ← Matrix.mulVec_mulVec, ← Matrix.mulVec_mulVec]
    have h3 : Matrix.diagonal (fun i => svd.sign S i * svd.s S i) *ᵥ ((svd.u S)ᵀ *ᵥ v) = 0 := by
      funext i
      have := congrFun h1 i
      rw [Matrix.mulVec_diagonal] at this ⊢
      rw [mul_assoc, this]
      simp
    rw [h3, Matrix.mulVec_zero]

theorem _root_.Cuthbert.Spec.IsAbs.zeroDim {S B : Matrix (Fin n) (Fin n) ℝ} (svd : SVD) (hS : S.IsSymm) (hB : B.IsSymm)
    (h : IsAbs S B) (i : Fin n) : ZeroDim S i ↔ ZeroDim B i := by
  have key : ∀ M : Matrix (Fin n) (Fin n) ℝ, M.IsSymm → (ZeroDim M i ↔ M *ᵥ Pi.single i 1 = 0) := fun M hM => by
    rw [Matrix.mulVec_single_one]
    refine ⟨fun h => funext h.1, fun h => ⟨fun r => congrFun h r, fun c => ?_⟩⟩
    rw [← hM.apply]
    exact congrFun h c
  rw [key S hS, key B hB]
  exact h.ker svd hS _

theorem _root_.Cuthbert.Spec.IsAbs.submatrix {S B : Matrix (Fin n) (Fin n) ℝ} (h : IsAbs S B) (σ : Equiv.Perm (Fin n)) :
    IsAbs (S.submatrix σ σ) (B.submatrix σ σ) := by
  have key : ∀ (M : Matrix (Fin n) (Fin n) ℝ) (v : Fin n → ℝ), (M.submatrix σ σ) *ᵥ v = (M *ᵥ (v ∘ σ.symm)) ∘ σ := by
    intro M v
    rw [Matrix.submatrix_mulVec_equiv]
  intro v μ hv
  have h1 := h (v ∘ σ.symm) μ (by
    rw [key] at hv
    funext i
    have := congrFun hv (σ.symm i)
    simpa using this)
  rw [key, h1]
  funext i
  simp

/-- The factor before NaN marking is a square root of the pseudo-inverse of the absolute value. -/
theorem invSqrtCore_pinv (qr : QR) (svd : SVD) (rtol : ℝ) (hr : 0 ≤ rtol) (S B : Matrix (Fin n) (Fin n) ℝ)
    (hsym : S.IsSymm) (hB : SemiConditioned rtol B) (hSB : IsAbs S B) :
    IsPinv B (invSqrtCore qr svd rtol S * (invSqrtCore qr svd rtol S)ᵀ) := by
  obtain ⟨-, hi, hhi, hgap⟩ := hB
  obtain ⟨hf, hcol⟩ := hSB.factor svd hsym
  obtain ⟨u, hu⟩ : ∃ u, u = svd.u S := ⟨_, rfl⟩
  obtain ⟨d, hd⟩ : ∃ d : Fin n → ℝ, d = svd.s S := ⟨_, rfl⟩
  have ho : uᵀ * u = 1 := by rw [hu]; exact svd.orthogonal S
  rw [← hu, ← hd] at hf hcol
  have hne : ∀ i, (fun r => u r i) ≠ 0 := by
    intro i h
    have := congrFun (congrFun ho i) i
    rw [Matrix.mul_apply, Matrix.one_apply_eq] at this
    have h0 : ∀ r, u r i = 0 := fun r => congrFun h r
    simp [h0] at this
  have hdb : ∀ i, d i = 0 ∨ rtol * hi < d i ∧ d i ≤ hi := fun i => hgap _ _ (hne i) (hcol i)
  have hrh : 0 ≤ rtol * hi := mul_nonneg hr hhi.le
  have hsd : ∀ i, svd.s S i = d i := fun i => by rw [hd]
  have htop : 0 ≤ rtol * svd.top S ∧ rtol * svd.top S ≤ rtol * hi := by
    unfold SVD.top
    split_ifs with hn
    · refine ⟨mul_nonneg hr (svd.nonneg S _), mul_le_mul_of_nonneg_left ?_ hr⟩
      rw [hsd]
      rcases hdb ⟨0, hn⟩ with h | h
      · rw [h]; exact hhi.le
      · exact h.2
    · rw [mul_zero]; exact ⟨le_rfl, hrh⟩
  have hG : invSqrtCore qr svd rtol S * (invSqrtCore qr svd rtol S)ᵀ = u * Matrix.diagonal (fun i => (d i)⁻¹) * uᵀ := by
    rw [(invSqrtCore_gram qr svd rtol S).2, hu]
    congr 3
    funext i
    rcases hdb i with h | h
    · rw [if_neg, h, _root_.inv_zero]
      rw [hsd, h]; exact not_lt.mpr htop.1
    · rw [if_pos, hsd]
      rw [hsd]; exact lt_of_le_of_lt htop.2 h.1
  have hsandwich : ∀ x y : Fin n → ℝ, (u * Matrix.diagonal x * uᵀ) * (u * Matrix.diagonal y * uᵀ) =
      u * Matrix.diagonal (fun i => x i * y i) * uᵀ := by
    intro x y
    calc _ = u * Matrix.diagonal x * (uᵀ * u) * Matrix.diagonal y * uᵀ := by
          simp only [Matrix.mul_assoc]
      _ = _ := by
          rw [ho, Matrix.mul_one, Matrix.mul_assoc u, Matrix.diagonal_mul_diagonal]
  have hsy : ∀ x : Fin n → ℝ, (u * Matrix.diagonal x * uᵀ).IsSymm := fun x => by
    rw [Matrix.IsSymm, Matrix.transpose_mul, Matrix.transpose_mul, Matrix.transpose_transpose,
      Matrix.diagonal_transpose, Matrix.mul_assoc]
  rw [hG]
  constructor
  · conv_rhs => rw [hf]
    conv_lhs => rw [hf, hsandwich, hsandwich]
    congr 3
    funext i
    by_cases hz : d i = 0
    · simp [hz]
    · field_simp
  · conv_lhs => rw [hf, hsandwich, hsandwich]
    congr 3
    funext i
    by_cases hz : d i = 0
    · simp [hz]
    · field_simp
  · rw [hf, hsandwich]; exact hsy _
  · rw [hf, hsandwich]; exact hsy _

theorem _root_.Cuthbert.Spec.SemiConditioned.submatrix {rtol : ℝ} {A : Matrix (Fin n) (Fin n) ℝ} (h : SemiConditioned rtol A)
    (σ : Equiv.Perm (Fin n)) : SemiConditioned rtol (A.submatrix σ σ) := by
  obtain ⟨hs, hi, hhi, hg⟩ := h
  refine ⟨by rw [Matrix.IsSymm, Matrix.transpose_submatrix, hs], hi, hhi, fun v μ hv hμ => ?_⟩
  refine hg (v ∘ σ.symm) μ (fun h => hv ?_) ?_
  · funext i
    have := congrFun h (σ i)
    simpa using this
  · funext i
    have := congrFun hμ (σ.symm i)
    rw [Matrix.mulVec, dotProduct, ← Equiv.sum_comp σ.symm] at this
    simp only [Matrix.submatrix_apply, Equiv.apply_symm_apply] at this
    exact this

/-- `symmetric_inv_sqrt` of a symmetric matrix that may be singular or indefinite: on the dimensions that appear in the
matrix it is lower triangular and `L Lᵀ` is the pseudo-inverse of the absolute value of the matrix. Vanishing dimensions
are marked by NaN. -/
theorem symmetric_inv_sqrt_abs (qr : QR) (svd : SVD) (rtol : ℝ) (hr : 0 ≤ rtol) (ign : Bool)
    (A B : Matrix (Fin n) (Fin n) ℝ) (hAs : A.IsSymm) (hB : SemiConditioned rtol B) (hAB : IsAbs A B)
    (y : Fin n → Option ℝ)
    (hy : ∀ i, y i = none ↔ ZeroDim A i) (hign : ign = true ∨ ∀ i, y i ≠ none) :
    ∃ (L : Matrix (Obs y) (Obs y) ℝ) (C : Matrix (Fin n) (Fin n) ℝ), IsPinv B C ∧ C.IsSymm ∧
      (∀ i j : Obs y, symmetricInvSqrt qr svd rtol ign (fun i j => some (A i j)) i.1 j.1 = some (L i j)) ∧
      (∀ i j : Obs y, i < j → L i j = 0) ∧ (∀ i j : Obs y, (L * Lᵀ) i j = C i.1 j.1) ∧
      (∀ i, y i = none → symmetricInvSqrt qr svd rtol ign (fun i j => some (A i j)) i i = none) ∧
      ∀ i j, i ≠ j → y i = none ∨ y j = none →
        symmetricInvSqrt qr svd rtol ign (fun i j => some (A i j)) i j = some 0 := by
  classical
  obtain ⟨mask, hmaskdef⟩ : ∃ mask : Fin n → Bool, mask = fun i => ((some (A i i)).isNone && ign) ||
      decide ((∀ r, some (A r i) = some (0 : ℝ)) ∧ ∀ c, some (A i c) = some (0 : ℝ)) := ⟨_, rfl⟩
  have hmask : ∀ i, mask i = true ↔ y i = none := by
    intro i
    rw [hy, hmaskdef]
    simp [ZeroDim]
  obtain ⟨σ, hσ⟩ : ∃ σ, σ = stableArgsort mask := ⟨_, rfl⟩
  have hinv : ∀ i j, ((mask i || mask j) && ign) = true ↔ (y i = none ∨ y j = none) := by
    intro i j
    rw [Bool.and_eq_true, Bool.or_eq_true, hmask, hmask]
    refine ⟨fun h => h.1, fun h => ⟨h, hign.resolve_right fun h' => ?_⟩⟩
    rcases h with h | h
    · exact h' _ h
    · exact h' _ h
  have hzero : ∀ i j, y i = none ∨ y j = none → A i j = 0 := by
    rintro i j (h | h)
    · exact ((hy i).mp h).2 j
    · exact ((hy j).mp h).1 i
  have hS : (Matrix.of fun i j => if (mask (σ i) || mask (σ j)) && ign then 0
      else (some (A (σ i) (σ j))).getD 0) = A.submatrix σ σ := by
    ext i j
    rw [Matrix.of_apply, Matrix.submatrix_apply]
    split_ifs with h
    · exact (hzero _ _ ((hinv _ _).mp h)).symm
    · rfl
  obtain ⟨R, hR⟩ : ∃ R, R = invSqrtCore qr svd rtol (A.submatrix σ σ) := ⟨_, rfl⟩
  have hRl : IsLower R := hR ▸ (invSqrtCore_gram qr svd rtol _).1
  have hAσs : (A.submatrix σ σ).IsSymm := by rw [Matrix.IsSymm, Matrix.transpose_submatrix, hAs]
  have hP : IsPinv (B.submatrix σ σ) (R * Rᵀ) :=
    hR ▸ invSqrtCore_pinv qr svd rtol hr _ _ hAσs (hB.submatrix σ) (hAB.submatrix σ)
  have hGs : (R * Rᵀ).IsSymm := by rw [Matrix.IsSymm, Matrix.transpose_mul, Matrix.transpose_transpose]
  obtain ⟨C, hC⟩ : ∃ C : Matrix (Fin n) (Fin n) ℝ, C = (R * Rᵀ).submatrix σ.symm σ.symm := ⟨_, rfl⟩
  have hBσ : B = (B.submatrix σ σ).submatrix σ.symm σ.symm := by
    ext i j; simp
  have hCs : C.IsSymm := by rw [hC, Matrix.IsSymm, Matrix.transpose_submatrix, hGs]
  have hpin : IsPinv B C := by
    have hsm : ∀ M : Matrix (Fin n) (Fin n) ℝ, M.IsSymm → (M.submatrix σ.symm σ.symm).IsSymm := fun M h => by
      rw [Matrix.IsSymm, Matrix.transpose_submatrix, h]
    rw [hBσ, hC]
    constructor <;> simp only [Matrix.submatrix_mul_equiv]
    · rw [hP.aca]
    · rw [hP.cac]
    · exact hsm _ hP.ac
    · exact hsm _ hP.ca
  have hCz : ∀ i j, y i = none → C i j = 0 := by
    intro i j hi
    have h1 : A *ᵥ Pi.single i 1 = 0 := by
      funext r
      rw [Matrix.mulVec_single_one]
      exact ((hy i).mp hi).1 r
    have h2 := congrFun (hpin.ker hB.1 hCs _ ((hAB.ker svd hAs _).mp h1)) j
    rw [Matrix.mulVec_single_one] at h2
    rw [← hCs.apply]
    exact h2
  have hRr : ∀ i j, y (σ i) = none → R i j = 0 := by
    intro i j hi
    apply row_eq_zero_of_gram
    have := hCz (σ i) (σ i) hi
    rw [hC, Matrix.submatrix_apply, Equiv.symm_apply_apply] at this
    exact this
  have hRc : ∀ i j, y (σ i) = none → R j i = 0 := by
    intro i j hi
    rcases lt_or_ge j i with h | h
    · exact hRl j i h
    · refine hRr j i ?_
      rw [← hmask] at hi ⊢
      rw [hσ] at hi ⊢
      exact (collect_nans_order mask).1 i j h hi
  have hnz : ∀ i, y (σ i) ≠ none → ¬ ((∀ r, R r i = 0) ∧ ∀ c, R i c = 0) := by
    intro i hi h
    apply hi
    rw [hy]
    have h0 : (R * Rᵀ) *ᵥ Pi.single i 1 = 0 := by
      funext r
      rw [Matrix.mulVec_single_one]
      change (R * Rᵀ) r i = 0
      rw [Matrix.mul_apply]
      exact Finset.sum_eq_zero fun x _ => by rw [Matrix.transpose_apply, h.2 x, mul_zero]
    have h1 := ((hAB.submatrix σ).ker svd hAσs _).mpr (hP.symm.ker hGs (hB.submatrix σ).1 _ h0)
    have h2 : ∀ r, A r (σ i) = 0 := fun r => by
      have := congrFun h1 (σ.symm r)
      rw [Matrix.mulVec_single_one] at this
      change A (σ (σ.symm r)) (σ i) = 0 at this
      rwa [Equiv.apply_symm_apply] at this
    exact ⟨h2, fun c => by rw [← hAs.apply]; exact h2 c⟩
  have hres : ∀ i j, symmetricInvSqrt qr svd rtol ign (fun i j => some (A i j)) i j =
      if i = j ∧ y i = none then none else if y i = none ∨ y j = none then some 0
        else some (R (σ.symm i) (σ.symm j)) := by
    intro i j
    have : symmetricInvSqrt qr svd rtol ign (fun i j => some (A i j)) i j =
        if σ.symm i = σ.symm j ∧ mask (σ (σ.symm i)) = true then none
        else if ((mask (σ (σ.symm i)) || mask (σ (σ.symm j))) && ign) = true then some 0
        else (if ∃ i j, ((mask (σ i) || mask (σ j)) && ign) = false ∧ some (A (σ i) (σ j)) = none then
          fun _ _ => none else symmetricInvSqrtNoNan qr svd rtol (Matrix.of fun i j =>
            if (mask (σ i) || mask (σ j)) && ign then 0 else (some (A (σ i) (σ j))).getD 0))
              (σ.symm i) (σ.symm j) := by rw [hσ, hmaskdef]; rfl
    rw [this, if_neg (c := ∃ i j, _ ∧ _) (by simp), hS]
    simp only [Equiv.apply_symm_apply, hmask, hinv, EmbeddingLike.apply_eq_iff_eq]
    by_cases h1 : i = j ∧ y i = none
    · rw [if_pos h1, if_pos h1]
    · rw [if_neg h1, if_neg h1]
      by_cases h2 : y i = none ∨ y j = none
      · rw [if_pos h2, if_pos h2]
      · rw [if_neg h2, if_neg h2]
        push Not at h2
        have a1 := hnz (σ.symm i) (by rw [Equiv.apply_symm_apply]; exact h2.1)
        have a2 := hnz (σ.symm j) (by rw [Equiv.apply_symm_apply]; exact h2.2)
        simp only [symmetricInvSqrtNoNan, ← hR]
        rw [if_neg]
        rintro (h | h)
        · exact a1 h
        · exact a2 h
  have hobs : ∀ i : Obs y, y i.1 ≠ none := fun i => Linearize.isNone_false.mp i.2
  refine ⟨Matrix.of fun i j => R (σ.symm i.1) (σ.symm j.1), C, hpin, hCs, ?_, ?_, ?_, ?_, ?_⟩
  · intro i j
    rw [hres, if_neg fun h => hobs i h.2, if_neg (by push Not; exact ⟨hobs i, hobs j⟩)]
    rfl
  · intro i j hij
    rw [Matrix.of_apply]
    apply hRl
    by_contra hle
    rw [not_lt] at hle
    rcases hle.lt_or_eq with h | h
    · have h1 := stableArgsort_stable mask (σ.symm j.1) (σ.symm i.1) h (by
        rw [← hσ, Equiv.apply_symm_apply, Equiv.apply_symm_apply]
        have b1 : mask j.1 = false := by
          rw [← Bool.not_eq_true, hmask]; exact hobs j
        have b2 : mask i.1 = false := by
          rw [← Bool.not_eq_true, hmask]; exact hobs i
        rw [b1, b2])
      rw [← hσ, Equiv.apply_symm_apply, Equiv.apply_symm_apply] at h1
      exact absurd hij (not_lt.mpr h1.le)
    · have := σ.symm.injective h
      rw [Subtype.ext this] at hij
      exact lt_irrefl _ hij
  · intro i j
    rw [hC, Matrix.submatrix_apply, Matrix.mul_apply, Matrix.mul_apply, ← Equiv.sum_comp σ.symm,
      ← Linearize.sum_obs y]
    · rfl
    · intro l hl
      rw [hRc (σ.symm l) _ (by rw [Equiv.apply_symm_apply]; exact hl), zero_mul]
  · intro i hi
    rw [hres, if_pos ⟨rfl, hi⟩]
  · intro i j hij h
    rw [hres, if_neg fun h' => hij h'.1, if_pos h]

end

end Cuthbert
