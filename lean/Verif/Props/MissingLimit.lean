import Verif.Props.Smoothness
import Verif.Props.Transform

/-!
# A missing component is an observation with infinite noise (C136)
-/

namespace Cuthbert.Kalman
open MeasureTheory Matrix Cuthbert.Spec Filter Topology

noncomputable section

set_option linter.unusedSectionVars false

variable {nx ny : ℕ} {Inp K : Type}

/-! ## Statement -/

/-- The diagonal matrix with a one for every missing component. -/
def missing (y : Fin ny → Option ℝ) : Matrix (Fin ny) (Fin ny) ℝ :=
  Matrix.diagonal fun i => if (y i).isNone then 1 else 0

/-- The number of missing components. -/
def numMissing (y : Fin ny → Option ℝ) : ℕ := Fintype.card {i : Fin ny // ¬ (y i).isNone = false}

/-- The model `cb'` is the model `cb` with the missing components of the observation at `u` replaced by those of `z u`
and `κ` added to the variance of their noise. -/
structure FilledIn (κ : ℝ) (z : Inp → Fin ny → ℝ) (cb cb' : Callbacks nx ny Inp) (u₀ : Inp) (us : List Inp) : Prop where
  init : cb'.getInit u₀ = cb.getInit u₀
  F : ∀ u ∈ us, (stepOf cb' u).F = (stepOf cb u).F
  c : ∀ u ∈ us, (stepOf cb' u).c = (stepOf cb u).c
  Q : ∀ u ∈ us, (stepOf cb' u).cholQ = (stepOf cb u).cholQ
  H : ∀ u ∈ us, (stepOf cb' u).H = (stepOf cb u).H
  d : ∀ u ∈ us, (stepOf cb' u).d = (stepOf cb u).d
  R : ∀ u ∈ us, (stepOf cb' u).cholR * ((stepOf cb' u).cholR)ᵀ =
    (stepOf cb u).cholR * ((stepOf cb u).cholR)ᵀ + κ • missing (stepOf cb u).y
  y : ∀ u ∈ us, (stepOf cb' u).y = fun i => some (((stepOf cb u).y i).getD (z u i))

/-! ## Invertible maps of the observation -/

section
variable {ι ο : Type*} [Fintype ι] [DecidableEq ι] [Fintype ο] [DecidableEq ο]

theorem innovCov_linear (A : Matrix ο ο ℝ) (P : Matrix ι ι ℝ) (H : Matrix ο ι ℝ) (R : Matrix ο ο ℝ) :
    innovCov P (A * H) (A * R * Aᵀ) = A * innovCov P H R * Aᵀ := by
  rw [innovCov, innovCov, Matrix.mul_add, Matrix.add_mul, Matrix.transpose_mul]
  simp only [Matrix.mul_assoc]

theorem quad_linear (A : Matrix ο ο ℝ) (hA : A.det ≠ 0) (S : Matrix ο ο ℝ) : Aᵀ * (A * S * Aᵀ)⁻¹ * A = S⁻¹ := by
  have hu : IsUnit A.det := isUnit_iff_ne_zero.mpr hA
  have hut : IsUnit Aᵀ.det := by rwa [Matrix.det_transpose]
  rw [Matrix.mul_inv_rev, Matrix.mul_inv_rev, ← Matrix.mul_assoc, Matrix.mul_nonsing_inv _ hut, Matrix.one_mul,
    Matrix.mul_assoc, Matrix.nonsing_inv_mul _ hu, Matrix.mul_one]

theorem condMean_linear (A : Matrix ο ο ℝ) (hA : A.det ≠ 0) (m : ι → ℝ) (P : Matrix ι ι ℝ) (H : Matrix ο ι ℝ) (d : ο → ℝ)
    (R : Matrix ο ο ℝ) (y : ο → ℝ) :
    condMean m P (A * H) (A *ᵥ d) (A * R * Aᵀ) (A *ᵥ y) = condMean m P H d R y := by
  have e : A *ᵥ y - ((A * H) *ᵥ m + A *ᵥ d) = A *ᵥ (y - (H *ᵥ m + d)) := by
    rw [Matrix.mulVec_sub, Matrix.mulVec_add, Matrix.mulVec_mulVec]
  rw [condMean, condMean, innovCov_linear, e, Matrix.transpose_mul, ← quad_linear A hA (innovCov P H R)]
  simp only [Matrix.mulVec_mulVec, Matrix.mul_assoc]

theorem condCov_linear (A : Matrix ο ο ℝ) (hA : A.det ≠ 0) (P : Matrix ι ι ℝ) (H : Matrix ο ι ℝ) (R : Matrix ο ο ℝ) :
    condCov P (A * H) (A * R * Aᵀ) = condCov P H R := by
  rw [condCov, condCov, innovCov_linear, Matrix.transpose_mul, ← quad_linear A hA (innovCov P H R)]
  simp only [Matrix.mul_assoc]

end

/-! ## The step with the missing components scaled by `ε` -/

/-- Scale the missing components by `ε`. -/
def scaling (y : Fin ny → Option ℝ) (ε : ℝ) : Matrix (Fin ny) (Fin ny) ℝ :=
  Matrix.diagonal fun i => if (y i).isNone then ε else 1

/-- Noise of the scaled observation. -/
def scaledR (s : Step nx ny) (ε : ℝ) : Matrix (Fin ny) (Fin ny) ℝ :=
  scaling s.y ε * (s.cholR * s.cholRᵀ) * (scaling s.y ε)ᵀ + (1 / (2 * Real.pi)) • missing s.y

/-- The observation with missing components taken from `z`. -/
def filled (z : Fin ny → ℝ) (y : Fin ny → Option ℝ) : Fin ny → ℝ := fun i => (y i).getD (z i)

def scaledStep (ε : ℝ) (z : Fin ny → ℝ) (k : KF nx) (s : Step nx ny) : KF nx where
  m := condMean (s.F *ᵥ k.m + s.c) (s.F * k.P * s.Fᵀ + s.cholQ * s.cholQᵀ) (scaling s.y ε * s.H)
    (scaling s.y ε *ᵥ s.d) (scaledR s ε) (scaling s.y ε *ᵥ filled z s.y)
  P := condCov (s.F * k.P * s.Fᵀ + s.cholQ * s.cholQᵀ) (scaling s.y ε * s.H) (scaledR s ε)
  l := k.l + gaussLogDensity ((scaling s.y ε * s.H) *ᵥ (s.F *ᵥ k.m + s.c) + scaling s.y ε *ᵥ s.d)
    (innovCov (s.F * k.P * s.Fᵀ + s.cholQ * s.cholQᵀ) (scaling s.y ε * s.H) (scaledR s ε))
    (scaling s.y ε *ᵥ filled z s.y)

theorem missing_gram (y : Fin ny → Option ℝ) : IsGram (missing y) := by
  refine ⟨missing y, ?_⟩
  rw [missing, Matrix.diagonal_transpose, Matrix.diagonal_mul_diagonal]
  congr 1
  funext i
  split <;> simp

theorem smul_gram {ι : Type*} [Fintype ι] {C : Matrix ι ι ℝ} (h : IsGram C) {a : ℝ} (ha : 0 ≤ a) : IsGram (a • C) := by
  obtain ⟨U, rfl⟩ := h
  refine ⟨Real.sqrt a • U, ?_⟩
  rw [Matrix.transpose_smul, Matrix.smul_mul, Matrix.mul_smul, smul_smul, Real.mul_self_sqrt ha]

theorem scaledR_gram (s : Step nx ny) (ε : ℝ) : IsGram (scaledR s ε) :=
  ((isGram_of s.cholR).conj _).add (smul_gram (missing_gram _) (by positivity))

theorem scaledR_det (s : Step nx ny) (hR : s.R.det ≠ 0) (ε : ℝ) : (scaledR s ε).det ≠ 0 := by
  intro h0
  obtain ⟨v, hv, h⟩ := Matrix.exists_mulVec_eq_zero_iff.mpr h0
  apply hv
  obtain ⟨D, hD⟩ : ∃ D, D = scaling s.y ε := ⟨_, rfl⟩
  have hq : v ⬝ᵥ scaledR s ε *ᵥ v =
      ((D * s.cholR)ᵀ *ᵥ v) ⬝ᵥ ((D * s.cholR)ᵀ *ᵥ v) + (1 / (2 * Real.pi)) * (v ⬝ᵥ missing s.y *ᵥ v) := by
    rw [scaledR, ← hD, Matrix.add_mulVec, dotProduct_add, Matrix.smul_mulVec, dotProduct_smul, smul_eq_mul]
    congr 1
    have e : D * (s.cholR * s.cholRᵀ) * Dᵀ = (D * s.cholR) * (D * s.cholR)ᵀ := by
      rw [Matrix.transpose_mul]; simp only [Matrix.mul_assoc]
    rw [e, ← Matrix.mulVec_mulVec, Matrix.dotProduct_mulVec, ← Matrix.mulVec_transpose]
  rw [h, dotProduct_zero] at hq
  have hpi : (0 : ℝ) < 1 / (2 * Real.pi) := by positivity
  have h1 : 0 ≤ ((D * s.cholR)ᵀ *ᵥ v) ⬝ᵥ ((D * s.cholR)ᵀ *ᵥ v) := Finset.sum_nonneg fun i _ => mul_self_nonneg _
  have hM : v ⬝ᵥ missing s.y *ᵥ v = ∑ i, if (s.y i).isNone then v i ^ 2 else 0 := by
    rw [missing, dotProduct]
    refine Finset.sum_congr rfl fun i _ => ?_
    rw [Matrix.mulVec_diagonal]
    split <;> ring
  have hnn : ∀ i ∈ Finset.univ, 0 ≤ if (s.y i).isNone then v i ^ 2 else 0 := fun i _ => by split <;> positivity
  have h2 : 0 ≤ v ⬝ᵥ missing s.y *ᵥ v := hM ▸ Finset.sum_nonneg hnn
  have h3 : v ⬝ᵥ missing s.y *ᵥ v = 0 := by nlinarith
  have h4 : ((D * s.cholR)ᵀ *ᵥ v) ⬝ᵥ ((D * s.cholR)ᵀ *ᵥ v) = 0 := by nlinarith
  have hmiss : ∀ i, (s.y i).isNone → v i = 0 := by
    intro i hi
    rw [hM] at h3
    have := (Finset.sum_eq_zero_iff_of_nonneg hnn).mp h3 i (Finset.mem_univ _)
    rw [if_pos hi] at this
    exact pow_eq_zero_iff two_ne_zero |>.mp this
  have h5 : (D * s.cholR)ᵀ *ᵥ v = 0 := dotProduct_self_eq_zero.mp h4
  have hDv : Dᵀ *ᵥ v = v := by
    rw [hD, scaling, Matrix.diagonal_transpose]
    funext i
    rw [Matrix.mulVec_diagonal]
    by_cases hi : (s.y i).isNone
    · rw [hmiss i hi, mul_zero]
    · rw [if_neg hi, one_mul]
  rw [Matrix.transpose_mul, ← Matrix.mulVec_mulVec, hDv] at h5
  have h6 : (obsL s.y s.cholR)ᵀ *ᵥ (fun i : Obs s.y => v i.1) = 0 := by
    rw [← h5]
    funext j
    simp only [Matrix.mulVec, dotProduct, Matrix.transpose_apply, obsL, Matrix.submatrix_apply, id]
    rw [← Equiv.sum_comp (Equiv.sumCompl fun i => (s.y i).isNone = false), Fintype.sum_sum_type]
    simp only [Equiv.sumCompl_apply_inl, Equiv.sumCompl_apply_inr]
    rw [left_eq_add]
    refine Finset.sum_eq_zero fun i _ => ?_
    rw [hmiss i.1 (by simpa using i.2), mul_zero]
  have h7 : (fun i : Obs s.y => v i.1) = 0 := by
    by_contra hne
    exact hR (Matrix.exists_mulVec_eq_zero_iff.mp ⟨_, hne, by rw [Step.R, ← Matrix.mulVec_mulVec, h6, Matrix.mulVec_zero]⟩)
  funext i
  by_cases hi : (s.y i).isNone
  · exact hmiss i hi
  · exact congrFun h7 ⟨i, by simpa only [Bool.not_eq_true] using hi⟩

theorem scaled_innov_det {k : KF nx} (hP : IsGram k.P) (s : Step nx ny) (hR : s.R.det ≠ 0) (ε : ℝ) :
    (innovCov (s.F * k.P * s.Fᵀ + s.cholQ * s.cholQᵀ) (scaling s.y ε * s.H) (scaledR s ε)).det ≠ 0 := by
  rw [innovCov, add_comm]
  exact (scaledR_gram s ε).det_add_ne_zero (scaledR_det s hR ε) ((pred_gram hP s).conj _)

theorem scaledStep_gram {k : KF nx} (hP : IsGram k.P) (s : Step nx ny) (hR : s.R.det ≠ 0) (ε : ℝ) (z : Fin ny → ℝ) :
    IsGram (scaledStep ε z k s).P :=
  condCov_gram (pred_gram hP s) (scaledR_gram s ε) (scaled_innov_det hP s hR ε)

/-! ### Continuity -/

theorem smooth_scaling (y : Fin ny → Option ℝ) : SmoothMat 0 Set.univ (scaling y) := by
  intro i j
  simp only [scaling, Matrix.diagonal_apply]
  split
  · split
    · exact contDiffOn_id
    · exact contDiffOn_const
  · exact contDiffOn_const

theorem SmoothKF.scaledStep {k : ℝ → KF nx} (hk : SmoothKF 0 Set.univ k) (hg : ∀ ε, IsGram (k ε).P) (s : Step nx ny)
    (hR : s.R.det ≠ 0) (z : Fin ny → ℝ) : SmoothKF 0 Set.univ fun ε => Kalman.scaledStep ε z (k ε) s := by
  have hD := smooth_scaling s.y
  have hF : SmoothMat 0 Set.univ fun _ : ℝ => s.F := SmoothMat.const _
  have hQ : SmoothMat 0 Set.univ fun _ : ℝ => s.cholQ * s.cholQᵀ := SmoothMat.const _
  have hP := ((hF.mul hk.P).mul hF.transpose).add hQ
  have hm := (hF.mulVec hk.m).add (SmoothVec.const s.c)
  have hH := hD.mul (SmoothMat.const s.H)
  have hd := hD.mulVec (SmoothVec.const s.d)
  have hRs : SmoothMat 0 Set.univ fun ε => scaledR s ε :=
    ((hD.mul (SmoothMat.const (s.cholR * s.cholRᵀ))).mul hD.transpose).add
      (SmoothMat.const ((1 / (2 * Real.pi)) • missing s.y))
  have hy := hD.mulVec (SmoothVec.const (filled z s.y))
  have hdet := fun ε (_ : ε ∈ Set.univ) => scaled_innov_det (hg ε) s hR ε
  exact ⟨smooth_condMean hm hP hH hd hRs hy hdet, smooth_condCov hP hH hRs hdet,
    hk.l.add (smooth_gaussLogDensity ((hH.mulVec hm).add hd) (smooth_innovCov hP hH hRs) hy hdet)⟩

/-! ### At zero -/

theorem scaledStep_zero {k : KF nx} (hP : IsGram k.P) (s : Step nx ny) (hR : s.R.det ≠ 0) (z : Fin ny → ℝ) :
    scaledStep 0 z k s = kfStep k s := by
  obtain ⟨P, hPe⟩ : ∃ P, P = s.F * k.P * s.Fᵀ + s.cholQ * s.cholQᵀ := ⟨_, rfl⟩
  obtain ⟨mp, hmp⟩ : ∃ mp, mp = s.F *ᵥ k.m + s.c := ⟨_, rfl⟩
  have hdet : (innovCov P (obsH s.y s.H) s.R).det ≠ 0 := by
    rw [hPe]; exact innov_det_of_R s hR (pred_gram hP s)
  let e : Obs s.y ⊕ {i : Fin ny // ¬ (s.y i).isNone = false} ≃ Fin ny := Equiv.sumCompl fun i => (s.y i).isNone = false
  have hl : ∀ i, e (.inl i) = i.1 := fun i => rfl
  have hr : ∀ i, e (.inr i) = i.1 := fun i => rfl
  have hn : ∀ i : {i : Fin ny // ¬ (s.y i).isNone = false}, (s.y i.1).isNone = true := fun i => by simpa using i.2
  have hmul : ∀ {α : Type} (X : Matrix (Fin ny) α ℝ) i a, (scaling s.y 0 * X) i a = if (s.y i).isNone then 0 else X i a := by
    intro α X i a
    rw [scaling, Matrix.diagonal_mul]
    split <;> simp
  have hvec : ∀ (v : Fin ny → ℝ) i, (scaling s.y 0 *ᵥ v) i = if (s.y i).isNone then 0 else v i := by
    intro v i
    rw [scaling, Matrix.mulVec_diagonal]
    split <;> simp
  have hS : (innovCov P (scaling s.y 0 * s.H) (scaledR s 0)).submatrix e e =
      fromBlocks (innovCov P (obsH s.y s.H) s.R) 0 0 ((1 / (2 * Real.pi)) • (1 : Matrix _ _ ℝ)) := by
    have e1 : innovCov P (scaling s.y 0 * s.H) (scaledR s 0) =
        scaling s.y 0 * innovCov P s.H (s.cholR * s.cholRᵀ) * (scaling s.y 0)ᵀ + (1 / (2 * Real.pi)) • missing s.y := by
      rw [← innovCov_linear, innovCov, innovCov, scaledR, add_assoc]
    have e2 : ∀ (X : Matrix (Fin ny) (Fin ny) ℝ) i j, (scaling s.y 0 * X * (scaling s.y 0)ᵀ) i j =
        if (s.y i).isNone || (s.y j).isNone then 0 else X i j := by
      intro X i j
      rw [scaling, Matrix.diagonal_transpose, Matrix.mul_diagonal, Matrix.diagonal_mul]
      cases (s.y i).isNone <;> cases (s.y j).isNone <;> simp
    rw [e1]
    ext i j
    rw [Matrix.submatrix_apply, Matrix.add_apply, e2, Matrix.smul_apply, missing, Matrix.diagonal_apply]
    rcases i with i | i <;> rcases j with j | j
    · rw [hl, hl, i.2, j.2]
      simp [innovCov_obs, Step.R]
    · rw [hl, hr, i.2, hn j]
      simp
    · rw [hl, hr, hn i, j.2]
      simp only [Bool.true_or, if_true, Matrix.fromBlocks_apply₂₁, Matrix.zero_apply, zero_add]
      rw [if_neg, smul_zero]
      intro hij
      have := hn i
      rw [hij, j.2] at this
      exact absurd this (by simp)
    · rw [hr, hr, hn i, hn j]
      simp [Matrix.one_apply, Subtype.ext_iff]
  have hs : (1 / (2 * Real.pi) : ℝ) ≠ 0 := by positivity
  have hX : ∀ i j, (scaling s.y 0 * s.H) (e (.inl i)) j = obsH s.y s.H i j := fun i j => by
    rw [hmul, hl, i.2]; rfl
  have hX0 : ∀ i j, (scaling s.y 0 * s.H) (e (.inr i)) j = 0 := fun i j => by rw [hmul, hr, hn i]; rfl
  have hres : scaling s.y 0 *ᵥ filled z s.y - ((scaling s.y 0 * s.H) *ᵥ mp + scaling s.y 0 *ᵥ s.d) =
      scaling s.y 0 *ᵥ (filled z s.y - (s.H *ᵥ mp + s.d)) := by
    rw [Matrix.mulVec_sub, Matrix.mulVec_add, Matrix.mulVec_mulVec]
  have hfill : ∀ i : Obs s.y, filled z s.y i.1 = obsY s.y i := by
    intro i
    have := i.2
    rw [filled, obsY]
    cases h : s.y i.1 with
    | none => rw [h] at this; simp at this
    | some a => rfl
  have hY : ∀ i : Obs s.y, (scaling s.y 0 *ᵥ filled z s.y - ((scaling s.y 0 * s.H) *ᵥ mp + scaling s.y 0 *ᵥ s.d)) (e (.inl i)) =
      (obsY s.y - (obsH s.y s.H *ᵥ mp + obsV s.y s.d)) i := by
    intro i
    rw [hres, hvec, hl, i.2, if_neg (by simp), Pi.sub_apply, Pi.sub_apply, hfill]
    rfl
  have hY0 : ∀ i, (scaling s.y 0 *ᵥ filled z s.y - ((scaling s.y 0 * s.H) *ᵥ mp + scaling s.y 0 *ᵥ s.d)) (e (.inr i)) = 0 := by
    intro i
    rw [hres, hvec, hr, hn i, if_pos rfl]
  have hm : condMean mp P (scaling s.y 0 * s.H) (scaling s.y 0 *ᵥ s.d) (scaledR s 0) (scaling s.y 0 *ᵥ filled z s.y) =
      condMean mp P (obsH s.y s.H) (obsV s.y s.d) s.R (obsY s.y) := by
    have h := padded_quad e _ _ _ hs hS hdet _ _
      (Matrix.of fun i (_ : Unit) => (scaling s.y 0 *ᵥ filled z s.y -
        ((scaling s.y 0 * s.H) *ᵥ mp + scaling s.y 0 *ᵥ s.d)) i)
      (Matrix.of fun i (_ : Unit) => (obsY s.y - (obsH s.y s.H *ᵥ mp + obsV s.y s.d)) i) hX hX0
      (fun i _ => hY i) (fun i _ => hY0 i)
    rw [condMean, condMean]
    congr 2
    funext a
    have ha := congrFun (congrFun h a) ()
    rw [Matrix.mulVec_mulVec, Matrix.mulVec_mulVec]
    simp only [Matrix.mul_apply, Matrix.of_apply] at ha
    simp only [Matrix.mul_apply, Matrix.mulVec, dotProduct]
    exact ha
  have hc : condCov P (scaling s.y 0 * s.H) (scaledR s 0) = condCov P (obsH s.y s.H) s.R := by
    rw [condCov, condCov, padded_quad e _ _ _ hs hS hdet _ _ _ _ hX hX0 hX hX0]
  have hll := gaussLogDensity_padded e _ _ hS ((scaling s.y 0 * s.H) *ᵥ mp + scaling s.y 0 *ᵥ s.d)
    (scaling s.y 0 *ᵥ filled z s.y) (obsH s.y s.H *ᵥ mp + obsV s.y s.d) (obsY s.y) hY hY0 hdet
  rw [scaledStep, kfStep, ← hPe, ← hmp, hm, hc, hll]

/-! ### Away from zero -/

theorem scaling_det (y : Fin ny → Option ℝ) (ε : ℝ) : (scaling y ε).det = ε ^ numMissing y := by
  rw [scaling, Matrix.det_diagonal, numMissing, Fintype.card_subtype, ← Finset.prod_const, Finset.prod_filter]
  refine Finset.prod_congr rfl fun i _ => ?_
  cases (y i).isNone <;> simp

theorem scaledStep_pos {ε κ : ℝ} (hε : 0 < ε) (hκ : ε * ε * κ = 1 / (2 * Real.pi)) (z : Fin ny → ℝ) {k : KF nx}
    (hP : IsGram k.P) (a : ℝ) (s s' : Step nx ny) (hR : s.R.det ≠ 0) (hF : s'.F = s.F) (hc : s'.c = s.c)
    (hQ : s'.cholQ = s.cholQ) (hH : s'.H = s.H) (hd : s'.d = s.d)
    (hRR : s'.cholR * s'.cholRᵀ = s.cholR * s.cholRᵀ + κ • missing s.y)
    (hy : s'.y = fun i => some ((s.y i).getD (z i))) :
    kfStep { k with l := k.l + a } s' = { scaledStep ε z k s with
      l := (scaledStep ε z k s).l + (a + numMissing s.y * Real.log ε) } := by
  obtain ⟨F, c, cholQ, H, d, cholR', y'⟩ := s'
  dsimp only at hF hc hQ hH hd hRR hy
  subst hF hc hQ hH hd hy
  have hDd : (scaling s.y ε).det ≠ 0 := by rw [scaling_det]; positivity
  have hsR : scaledR s ε = scaling s.y ε * (cholR' * cholR'ᵀ) * (scaling s.y ε)ᵀ := by
    rw [hRR, Matrix.mul_add, Matrix.add_mul, scaledR]
    congr 1
    rw [missing, scaling, Matrix.diagonal_transpose, Matrix.mul_smul, Matrix.smul_mul, Matrix.diagonal_mul_diagonal,
      Matrix.diagonal_mul_diagonal, ← hκ]
    ext i j
    simp only [Matrix.smul_apply, Matrix.diagonal_apply, smul_eq_mul]
    split
    · split <;> ring
    · simp
  have hd' := scaled_innov_det hP s hR ε
  rw [hsR, innovCov_linear, Matrix.det_mul, Matrix.det_mul] at hd'
  have hdet := right_ne_zero_of_mul (left_ne_zero_of_mul hd')
  let e : Obs (fun i => some ((s.y i).getD (z i))) ≃ Fin ny := (allObs fun i => (s.y i).getD (z i)).symm
  have e1 := condMean_reindex e (s.F *ᵥ k.m + s.c) (s.F * k.P * s.Fᵀ + s.cholQ * s.cholQᵀ) s.H s.d (cholR' * cholR'ᵀ)
    (filled z s.y)
  have e2 := condCov_reindex e (s.F * k.P * s.Fᵀ + s.cholQ * s.cholQᵀ) s.H (cholR' * cholR'ᵀ)
  have e3 := gaussLogDensity_reindex e (s.H *ᵥ (s.F *ᵥ k.m + s.c) + s.d) (filled z s.y)
    (innovCov (s.F * k.P * s.Fᵀ + s.cholQ * s.cholQᵀ) s.H (cholR' * cholR'ᵀ))
  have e4 : (scaling s.y ε * s.H) *ᵥ (s.F *ᵥ k.m + s.c) + scaling s.y ε *ᵥ s.d =
      scaling s.y ε *ᵥ (s.H *ᵥ (s.F *ᵥ k.m + s.c) + s.d) := by
    rw [Matrix.mulVec_add (scaling s.y ε), ← Matrix.mulVec_mulVec]
  have hlog : Real.log |(scaling s.y ε).det| = numMissing s.y * Real.log ε := by
    rw [scaling_det, abs_of_pos (by positivity), Real.log_pow]
  rw [scaledStep, hsR, condMean_linear _ hDd, condCov_linear _ hDd, innovCov_linear, e4,
    gaussLogDensity_linear _ hDd _ _ _ hdet, hlog]
  rw [kfStep]
  congr 1
  refine (congrArg (k.l + a + ·) e3).trans ?_
  ring

/-! ## Filter -/

/-- The filter with the missing components scaled by `ε`. -/
def scaledFold (ε : ℝ) (z : Inp → Fin ny → ℝ) (cb : Callbacks nx ny Inp) (us : List Inp) (k : KF nx) : KF nx :=
  us.foldl (fun k u => scaledStep ε (z u) k (stepOf cb u)) k

variable {z : Inp → Fin ny → ℝ} {cb : Callbacks nx ny Inp}

theorem scaledFold_gram (ε : ℝ) : ∀ (us : List Inp), (∀ u ∈ us, (stepOf cb u).R.det ≠ 0) → ∀ {k : KF nx}, IsGram k.P →
    IsGram (scaledFold ε z cb us k).P
  | [], _, _, h => h
  | u :: us, hR, k, h => scaledFold_gram ε us (fun v hv => hR v (List.mem_cons_of_mem _ hv))
    (k := scaledStep ε (z u) k (stepOf cb u)) (scaledStep_gram h _ (hR u List.mem_cons_self) ε _)

theorem scaledFold_zero : ∀ (us : List Inp), (∀ u ∈ us, (stepOf cb u).R.det ≠ 0) → ∀ {k : KF nx}, IsGram k.P →
    scaledFold 0 z cb us k = (us.map (stepOf cb)).foldl kfStep k
  | [], _, _, _ => rfl
  | u :: us, hR, k, h => by
    have h0 := hR u List.mem_cons_self
    have ih := scaledFold_zero us (fun v hv => hR v (List.mem_cons_of_mem _ hv))
      (k := scaledStep 0 (z u) k (stepOf cb u)) (scaledStep_gram h _ h0 0 _)
    rw [scaledFold, List.foldl_cons, List.map_cons, List.foldl_cons, ← scaledStep_zero h _ h0 (z u)]
    exact ih

theorem SmoothKF.scaledFold : ∀ (us : List Inp), (∀ u ∈ us, (stepOf cb u).R.det ≠ 0) → ∀ {k : ℝ → KF nx},
    SmoothKF 0 Set.univ k → (∀ ε, IsGram (k ε).P) → SmoothKF 0 Set.univ fun ε => Kalman.scaledFold ε z cb us (k ε)
  | [], _, _, h, _ => h
  | u :: us, hR, k, h, hg =>
    SmoothKF.scaledFold us (fun v hv => hR v (List.mem_cons_of_mem _ hv))
      (k := fun ε => Kalman.scaledStep ε (z u) (k ε) (stepOf cb u))
      (h.scaledStep hg _ (hR u List.mem_cons_self) _) fun ε => scaledStep_gram (hg ε) _ (hR u List.mem_cons_self) ε _

/-- The number of missing components in a list of observations. -/
def totalMissing (cb : Callbacks nx ny Inp) (us : List Inp) : ℕ := (us.map fun u => numMissing (stepOf cb u).y).sum

theorem FilledIn.fold {ε κ : ℝ} (hε : 0 < ε) (hκ : ε * ε * κ = 1 / (2 * Real.pi)) {cb' : Callbacks nx ny Inp} {u₀ : Inp}
    {us : List Inp} (h : FilledIn κ z cb cb' u₀ us) (hR : ∀ u ∈ us, (stepOf cb u).R.det ≠ 0) :
    ∀ (vs : List Inp), (∀ v ∈ vs, v ∈ us) → ∀ {k : KF nx} (a : ℝ), IsGram k.P →
      (vs.map (stepOf cb')).foldl kfStep { k with l := k.l + a } = { scaledFold ε z cb vs k with
        l := (scaledFold ε z cb vs k).l + (a + totalMissing cb vs * Real.log ε) }
  | [], _, k, a, _ => by simp [scaledFold, totalMissing]
  | v :: vs, hs, k, a, hg => by
    have hv := hs v List.mem_cons_self
    rw [List.map_cons, List.foldl_cons, scaledStep_pos hε hκ (z v) hg a (stepOf cb v) (stepOf cb' v) (hR v hv) (h.F v hv)
      (h.c v hv) (h.Q v hv) (h.H v hv) (h.d v hv) (h.R v hv) (h.y v hv),
      FilledIn.fold hε hκ h hR vs (fun w hw => hs w (List.mem_cons_of_mem _ hw)) _ (scaledStep_gram hg _ (hR v hv) ε _)]
    have e : scaledFold ε z cb (v :: vs) k = scaledFold ε z cb vs (scaledStep ε (z v) k (stepOf cb v)) := rfl
    rw [e]
    simp only [totalMissing, List.map_cons, List.sum_cons, Nat.cast_add]
    ring_nf

/-- The scale that belongs to `κ`. -/
def scaleOf (κ : ℝ) : ℝ := (Real.sqrt (2 * Real.pi * κ))⁻¹

theorem scaleOf_pos {κ : ℝ} (h : 0 < κ) : 0 < scaleOf κ := by rw [scaleOf]; positivity

theorem scaleOf_sq {κ : ℝ} (h : 0 < κ) : scaleOf κ * scaleOf κ * κ = 1 / (2 * Real.pi) := by
  rw [scaleOf, ← mul_inv, Real.mul_self_sqrt (by positivity)]
  field_simp

theorem log_scaleOf {κ : ℝ} (h : 0 < κ) : Real.log (scaleOf κ) = -(1 / 2) * Real.log (2 * Real.pi * κ) := by
  rw [scaleOf, Real.log_inv, Real.log_sqrt (by positivity)]
  ring

theorem tendsto_scaleOf : Tendsto scaleOf atTop (𝓝 0) :=
  tendsto_inv_atTop_zero.comp (Real.tendsto_sqrt_atTop.comp (tendsto_id.const_mul_atTop (by positivity)))

theorem tendsto_of_smooth {f g : ℝ → ℝ} (hf : ContDiffOn ℝ 0 f Set.univ) (h : ∀ κ > 0, g κ = f (scaleOf κ)) :
    Tendsto g atTop (𝓝 (f 0)) := by
  have h1 : Continuous f := continuousOn_univ.mp (contDiffOn_zero.mp hf)
  refine ((h1.tendsto 0).comp tendsto_scaleOf).congr' ?_
  filter_upwards [eventually_gt_atTop 0] with κ hκ
  exact (h κ hκ).symm

theorem FilledIn.R_det {κ : ℝ} (hκ : 0 < κ) {cb' : Callbacks nx ny Inp} {u₀ : Inp} {us : List Inp}
    (h : FilledIn κ z cb cb' u₀ us) (hR : ∀ u ∈ us, (stepOf cb u).R.det ≠ 0) : ∀ u ∈ us, (stepOf cb' u).R.det ≠ 0 := by
  intro u hu
  have h1 := scaledR_det _ (hR u hu) (scaleOf κ)
  have hsR : scaledR (stepOf cb u) (scaleOf κ) = scaling (stepOf cb u).y (scaleOf κ) *
      ((stepOf cb' u).cholR * ((stepOf cb' u).cholR)ᵀ) * (scaling (stepOf cb u).y (scaleOf κ))ᵀ := by
    rw [h.R u hu, Matrix.mul_add, Matrix.add_mul, scaledR]
    congr 1
    rw [missing, scaling, Matrix.diagonal_transpose, Matrix.mul_smul, Matrix.smul_mul, Matrix.diagonal_mul_diagonal,
      Matrix.diagonal_mul_diagonal, ← scaleOf_sq hκ]
    ext i j
    simp only [Matrix.smul_apply, Matrix.diagonal_apply, smul_eq_mul]
    split
    · split <;> ring
    · simp
  rw [hsR, Matrix.det_mul, Matrix.det_mul] at h1
  have h2 := right_ne_zero_of_mul (left_ne_zero_of_mul h1)
  have key : ∀ s : Step nx ny, (∃ v : Fin ny → ℝ, s.y = fun i => some (v i)) → (s.cholR * s.cholRᵀ).det ≠ 0 →
      s.R.det ≠ 0 := by
    rintro ⟨F, c, Q, H, d, L, y⟩ ⟨v, hv⟩ hs
    dsimp only at hv
    subst hv
    have e : (Step.R ⟨F, c, Q, H, d, L, fun i => some (v i)⟩).submatrix (allObs v) (allObs v) = L * Lᵀ := rfl
    rw [← Matrix.det_submatrix_equiv_self (allObs v), e]
    exact hs
  exact key _ ⟨_, h.y u hu⟩ h2

/-- The log normalising constant, mean and covariance with added noise of variance `κ` tend to those of the model with
missing components, as `κ` grows. -/
theorem FilledIn.tendsto {cb' : ℝ → Callbacks nx ny Inp} {u₀ : Inp} {us : List Inp}
    (h : ∀ κ > 0, FilledIn κ z cb (cb' κ) u₀ us) (hR : ∀ u ∈ us, (stepOf cb u).R.det ≠ 0) (t : ℕ) :
    ∃ k : ℝ → KF nx, SmoothKF 0 Set.univ k ∧ (∀ ε, IsGram (k ε).P) ∧ k 0 = kfAt cb u₀ us t ∧
      ∀ κ > 0, kfAt (cb' κ) u₀ us t = { k (scaleOf κ) with
        l := (k (scaleOf κ)).l + totalMissing cb (us.take t) * Real.log (scaleOf κ) } := by
  have hR' : ∀ u ∈ us.take t, (stepOf cb u).R.det ≠ 0 := fun u hu => hR u (List.mem_of_mem_take hu)
  refine ⟨fun ε => scaledFold ε z cb (us.take t) ⟨(cb.getInit u₀).1, (cb.getInit u₀).2 * ((cb.getInit u₀).2)ᵀ, 0⟩,
    SmoothKF.scaledFold _ hR' ⟨SmoothVec.const _, SmoothMat.const _, contDiffOn_const⟩ fun _ => isGram_of _,
    fun ε => scaledFold_gram ε _ hR' (isGram_of _), scaledFold_zero _ hR' (isGram_of _), fun κ hκ => ?_⟩
  have := (h κ hκ).fold (scaleOf_pos hκ) (scaleOf_sq hκ) hR (us.take t) (fun _ => List.mem_of_mem_take)
    (k := ⟨(cb.getInit u₀).1, (cb.getInit u₀).2 * ((cb.getInit u₀).2)ᵀ, 0⟩) 0 (isGram_of _)
  rw [zero_add] at this
  rw [kfAt, (h κ hκ).init]
  simpa using this

/-- **C136**, Kalman filter. -/
theorem kalman_missing_limit (qr : QR) (rng : Prng K) (cb : Callbacks nx ny Inp) (cb' : ℝ → Callbacks nx ny Inp)
    (z : Inp → Fin ny → ℝ) (u₀ : Inp) (us : List Inp) (parallel : Bool) (key : Option K)
    (h : ∀ κ > 0, FilledIn κ z cb (cb' κ) u₀ us) (hR : ∀ u ∈ us, (stepOf cb u).R.det ≠ 0) :
    ∃ states, (filter rng (buildFilter qr cb) (u₀ :: us) parallel key).result = .ok states ∧
      ∃ states' : ℝ → List (FilterState nx Inp),
        (∀ κ > 0, (filter rng (buildFilter qr (cb' κ)) (u₀ :: us) parallel key).result = .ok (states' κ)) ∧
      ∀ t ≤ us.length, ∃ (s : FilterState nx Inp) (m : Fin nx → ℝ) (L : Matrix (Fin nx) (Fin nx) ℝ)
        (s' : ℝ → FilterState nx Inp) (m' : ℝ → Fin nx → ℝ) (L' : ℝ → Matrix (Fin nx) (Fin nx) ℝ),
        states[t]? = some s ∧ s.mean = some m ∧ s.cholCov = some L ∧
        (∀ κ > 0, (states' κ)[t]? = some (s' κ) ∧ (s' κ).mean = some (m' κ) ∧ (s' κ).cholCov = some (L' κ)) ∧
        (∀ i, Tendsto (fun κ => m' κ i) atTop (𝓝 (m i))) ∧
        (∀ i j, Tendsto (fun κ => (L' κ * (L' κ)ᵀ) i j) atTop (𝓝 ((L * Lᵀ) i j))) ∧
        (IsLower (cb.getInit u₀).2 → ∀ (l : ℝ) (l' : ℝ → ℝ), s.logNormalizingConstant = some l →
          (∀ κ > 0, (s' κ).logNormalizingConstant = some (l' κ)) →
          Tendsto (fun κ => l' κ + totalMissing cb (us.take t) / 2 * Real.log (2 * Real.pi * κ)) atTop (𝓝 l)) := by
  obtain ⟨states, h1, h2, h3⟩ := Linearize.kalman_run qr rng cb u₀ us parallel key hR
  have hrun := fun κ (hκ : κ > 0) => Linearize.kalman_run qr rng (cb' κ) u₀ us parallel key ((h κ hκ).R_det hκ hR)
  classical
  let states' : ℝ → List (FilterState nx Inp) := fun κ => if hκ : κ > 0 then (hrun κ hκ).choose else []
  have hst : ∀ κ (hκ : κ > 0), states' κ = (hrun κ hκ).choose := fun κ hκ => dif_pos hκ
  refine ⟨states, h1, states', fun κ hκ => by rw [hst κ hκ]; exact (hrun κ hκ).choose_spec.1, fun t ht => ?_⟩
  obtain ⟨k, hk, -, hk0, hkκ⟩ := FilledIn.tendsto h hR t
  obtain ⟨s, hs, hm, ⟨L, hL, hLP⟩, hl⟩ := h3 t ht
  have hrun' : ∀ κ : ℝ, ∃ (s' : FilterState nx Inp) (L' : Matrix (Fin nx) (Fin nx) ℝ), κ > 0 →
      (states' κ)[t]? = some s' ∧ s'.mean = some (kfAt (cb' κ) u₀ us t).m ∧ s'.cholCov = some L' ∧
        L' * L'ᵀ = (kfAt (cb' κ) u₀ us t).P ∧
        (IsLower ((cb' κ).getInit u₀).2 → ∀ l, s'.logNormalizingConstant = some l → l = (kfAt (cb' κ) u₀ us t).l) := by
    intro κ
    by_cases hκ : κ > 0
    · obtain ⟨s', a1, a2, ⟨L', a3, a4⟩, a5⟩ := (hrun κ hκ).choose_spec.2.2 t ht
      exact ⟨s', L', fun _ => ⟨by rw [hst κ hκ]; exact a1, a2, a3, a4, a5⟩⟩
    · exact ⟨s, L, fun h => absurd h hκ⟩
  choose s' L' hs' using hrun'
  refine ⟨s, _, L, s', fun κ => (kfAt (cb' κ) u₀ us t).m, L', hs, hm, hL,
    fun κ hκ => ⟨(hs' κ hκ).1, (hs' κ hκ).2.1, (hs' κ hκ).2.2.1⟩, fun i => ?_, fun i j => ?_, fun hlow l l' hl1 hl2 => ?_⟩
  · rw [← hk0]
    exact tendsto_of_smooth (hk.m i) fun κ hκ => by dsimp only; rw [hkκ κ hκ]
  · rw [hLP, ← hk0]
    exact tendsto_of_smooth (hk.P i j) fun κ hκ => by dsimp only; rw [(hs' κ hκ).2.2.2.1, hkκ κ hκ]
  · rw [hl hlow l hl1, ← hk0]
    refine tendsto_of_smooth hk.l fun κ hκ => ?_
    have := (hs' κ hκ).2.2.2.2 (by rw [(h κ hκ).init]; exact hlow) _ (hl2 κ hκ)
    rw [this, hkκ κ hκ]
    dsimp only
    rw [log_scaleOf hκ]
    ring

/-- Filled-in models exist for every model, all filled-in values and all added variances. -/
theorem exists_filledIn (cb : Callbacks nx ny Inp) (z : Inp → Fin ny → ℝ) (u₀ : Inp) (us : List Inp) :
    ∃ cb' : ℝ → Callbacks nx ny Inp, ∀ κ > 0, FilledIn κ z cb (cb' κ) u₀ us := by
  have h : ∀ (κ : ℝ) (u : Inp), ∃ W : Matrix (Fin ny) (Fin ny) ℝ, κ > 0 →
      W * Wᵀ = (stepOf cb u).cholR * ((stepOf cb u).cholR)ᵀ + κ • missing (stepOf cb u).y := by
    intro κ u
    by_cases hκ : κ > 0
    · obtain ⟨W, hW⟩ := ((isGram_of (stepOf cb u).cholR).add (smul_gram (missing_gram (stepOf cb u).y) hκ.le)).exists_sqrt
      exact ⟨W, fun _ => hW⟩
    · exact ⟨0, fun h => absurd h hκ⟩
  choose W hW using h
  exact ⟨fun κ => ⟨cb.getInit, cb.getDynamics, fun u => ((stepOf cb u).H, (stepOf cb u).d, W κ u,
    fun i => some (((stepOf cb u).y i).getD (z u i)))⟩, fun κ hκ => ⟨rfl, fun _ _ => rfl, fun _ _ => rfl, fun _ _ => rfl,
    fun _ _ => rfl, fun _ _ => rfl, fun u _ => hW κ u hκ, fun _ _ => rfl⟩⟩

/-- Non-vacuity: two components observed with correlated noise, of which the second is missing at the first time step
and both at the second. -/
theorem exists_missing : ∃ cb : Callbacks 1 2 ℕ, (∀ u ∈ [1, 2], (stepOf cb u).R.det ≠ 0) ∧ IsLower (cb.getInit 0).2 ∧
    (∀ u ∈ [1, 2], (stepOf cb u).cholQ.det ≠ 0) ∧ totalMissing cb [1, 2] = 3 ∧ (stepOf cb 1).cholR = !![1, 0; 1, 1] := by
  refine ⟨⟨fun _ => (0, 1), fun _ => (1, 0, 1), fun u => (!![1; 1], 0, !![1, 0; 1, 1],
    if u = 1 then ![some 5, none] else ![none, none])⟩, ?_, ?_, ?_, ?_, rfl⟩
  · intro u hu
    simp only [List.mem_cons, List.not_mem_nil, or_false] at hu
    have key : ∀ s : Step 1 2, s.cholR = !![1, 0; 1, 1] → s.R.det ≠ 0 := by
      intro s hs
      have h1 : (s.cholR * s.cholRᵀ).PosDef := by
        refine (isGram_of s.cholR).posDef ?_
        rw [hs, Matrix.det_mul, Matrix.det_transpose, Matrix.det_fin_two]
        simp
      have h2 := h1.submatrix (e := (Subtype.val : Obs s.y → Fin 2)) Subtype.val_injective
      exact h2.det_pos.ne'
    exact key _ rfl
  · intro i j hij
    exact absurd hij (by omega)
  · intro u _
    show (1 : Matrix (Fin 1) (Fin 1) ℝ).det ≠ 0
    simp
  · simp only [totalMissing, numMissing, Fintype.card_subtype]
    simp [stepOf]
    decide

/-! ## Smoother -/

/-- The smoother with the missing components scaled by `ε`. -/
def scaledRts (ε : ℝ) (z : Inp → Fin ny → ℝ) (cb : Callbacks nx ny Inp) (k : KF nx) :
    List Inp → (Fin nx → ℝ) × Matrix (Fin nx) (Fin nx) ℝ
  | [] => (k.m, k.P)
  | u :: us =>
    (condMean k.m k.P (stepOf cb u).F (stepOf cb u).c ((stepOf cb u).cholQ * (stepOf cb u).cholQᵀ)
        (scaledRts ε z cb (scaledStep ε (z u) k (stepOf cb u)) us).1,
      k.P * (stepOf cb u).Fᵀ * (innovCov k.P (stepOf cb u).F ((stepOf cb u).cholQ * (stepOf cb u).cholQᵀ))⁻¹ *
        (scaledRts ε z cb (scaledStep ε (z u) k (stepOf cb u)) us).2 *
        (k.P * (stepOf cb u).Fᵀ * (innovCov k.P (stepOf cb u).F ((stepOf cb u).cholQ * (stepOf cb u).cholQᵀ))⁻¹)ᵀ +
          condCov k.P (stepOf cb u).F ((stepOf cb u).cholQ * (stepOf cb u).cholQᵀ))

theorem scaledRts_zero : ∀ (us : List Inp), (∀ u ∈ us, (stepOf cb u).R.det ≠ 0) → ∀ {k : KF nx}, IsGram k.P →
    scaledRts 0 z cb k us = rts k (us.map (stepOf cb))
  | [], _, _, _ => rfl
  | u :: us, hR, k, h => by
    have h0 := hR u List.mem_cons_self
    have ih := scaledRts_zero us (fun v hv => hR v (List.mem_cons_of_mem _ hv))
      (k := scaledStep 0 (z u) k (stepOf cb u)) (scaledStep_gram h _ h0 0 _)
    rw [scaledRts, List.map_cons, rts, ih, scaledStep_zero h _ h0 (z u)]

theorem FilledIn.rts {ε κ : ℝ} (hε : 0 < ε) (hκ : ε * ε * κ = 1 / (2 * Real.pi)) {cb' : Callbacks nx ny Inp} {u₀ : Inp}
    {us : List Inp} (h : FilledIn κ z cb cb' u₀ us) (hR : ∀ u ∈ us, (stepOf cb u).R.det ≠ 0) :
    ∀ (vs : List Inp), (∀ v ∈ vs, v ∈ us) → ∀ {k : KF nx} (a : ℝ), IsGram k.P →
      Kalman.rts { k with l := k.l + a } (vs.map (stepOf cb')) = scaledRts ε z cb k vs
  | [], _, k, a, _ => rfl
  | v :: vs, hs, k, a, hg => by
    have hv := hs v List.mem_cons_self
    rw [List.map_cons, Kalman.rts, scaledStep_pos hε hκ (z v) hg a (stepOf cb v) (stepOf cb' v) (hR v hv) (h.F v hv)
      (h.c v hv) (h.Q v hv) (h.H v hv) (h.d v hv) (h.R v hv) (h.y v hv),
      FilledIn.rts hε hκ h hR vs (fun w hw => hs w (List.mem_cons_of_mem _ hw)) _ (scaledStep_gram hg _ (hR v hv) ε _),
      scaledRts, h.F v hv, h.c v hv, h.Q v hv]

theorem pred_det_of_Q {P F Q : Matrix (Fin nx) (Fin nx) ℝ} (hP : IsGram P) (hQ : Q.det ≠ 0) :
    (innovCov P F (Q * Qᵀ)).det ≠ 0 := by
  rw [innovCov, add_comm]
  refine (isGram_of Q).det_add_ne_zero ?_ (hP.conj _)
  rw [Matrix.det_mul, Matrix.det_transpose]
  exact mul_ne_zero hQ hQ

theorem smooth_scaledRts : ∀ (us : List Inp), (∀ u ∈ us, (stepOf cb u).R.det ≠ 0) →
    (∀ u ∈ us, (stepOf cb u).cholQ.det ≠ 0) → ∀ {k : ℝ → KF nx}, SmoothKF 0 Set.univ k → (∀ ε, IsGram (k ε).P) →
    (SmoothVec 0 Set.univ fun ε => (scaledRts ε z cb (k ε) us).1) ∧
      SmoothMat 0 Set.univ fun ε => (scaledRts ε z cb (k ε) us).2
  | [], _, _, _, hk, _ => ⟨hk.m, hk.P⟩
  | u :: us, hR, hQ, k, hk, hg => by
    have h0 := hR u List.mem_cons_self
    obtain ⟨ih1, ih2⟩ := smooth_scaledRts us (fun v hv => hR v (List.mem_cons_of_mem _ hv))
      (fun v hv => hQ v (List.mem_cons_of_mem _ hv)) (hk.scaledStep hg (stepOf cb u) h0 (z u))
      fun ε => scaledStep_gram (hg ε) _ h0 ε _
    have hF : SmoothMat 0 Set.univ fun _ : ℝ => (stepOf cb u).F := SmoothMat.const _
    have hc : SmoothVec 0 Set.univ fun _ : ℝ => (stepOf cb u).c := SmoothVec.const _
    have hQs : SmoothMat 0 Set.univ fun _ : ℝ => (stepOf cb u).cholQ * (stepOf cb u).cholQᵀ := SmoothMat.const _
    have hdet := fun ε (_ : ε ∈ Set.univ) => pred_det_of_Q (F := (stepOf cb u).F) (hg ε) (hQ u List.mem_cons_self)
    have hG := (hk.P.mul hF.transpose).mul ((smooth_innovCov hk.P hF hQs).inv hdet)
    exact ⟨smooth_condMean hk.m hk.P hF hc hQs ih1 hdet,
      ((hG.mul ih2).mul hG.transpose).add (smooth_condCov hk.P hF hQs hdet)⟩

/-- The smoother's states. -/
theorem smoother_rts (qr : QR) (rng rng' : Prng K) (cb : Callbacks nx ny Inp) (u₀ : Inp) (us : List Inp)
    (hus : us ≠ []) (parallel parallel' : Bool) (key key' : Option K) (opts : SmootherOpts nx Inp)
    (hR : ∀ u ∈ us, (stepOf cb u).R.det ≠ 0) (hQ : ∀ u ∈ us, (stepOf cb u).cholQ.det ≠ 0) :
    ∃ filterStates, (filter rng (buildFilter qr cb) (u₀ :: us) parallel key).result = .ok filterStates ∧
      ∃ states, (smoother rng' FilterState.modelInputs (fun u => .ok (opts.dummy u))
          (buildSmoother qr cb.getDynamics opts) filterStates none parallel' key').result = .ok states ∧
        ∀ t ≤ us.length, ∃ s L, states[t]? = some s ∧
          s.mean = some (rts (kfAt cb u₀ us t) ((us.drop t).map (stepOf cb))).1 ∧ s.cholCov = some L ∧
          L * Lᵀ = (rts (kfAt cb u₀ us t) ((us.drop t).map (stepOf cb))).2 := by
  obtain ⟨filterStates, hf, -, -⟩ := Linearize.kalman_run qr rng cb u₀ us parallel key hR
  obtain ⟨states, LT, h1, h2, h3, h4⟩ := smoother_run_facts qr rng rng' cb u₀ us hus parallel parallel' key key' opts
    (fun u hu => ScanOk.of_R _ (hR u hu)) filterStates hf
    (fun t s L u _ _ hu => pred_det_of_Q (isGram_of L) (hQ u (List.mem_of_getElem? hu))) none (.inl rfl)
  refine ⟨filterStates, hf, states, h1, fun t ht => ?_⟩
  obtain ⟨s, e, bs, h5, h6, h7, h8, -⟩ := h4 t ht
  have hfold : kfAt cb u₀ us us.length = ((us.drop t).map (stepOf cb)).foldl kfStep (kfAt cb u₀ us t) := by
    rw [kfAt, kfAt, ← List.foldl_append, ← List.map_append, List.take_append_drop, List.take_length]
  rw [backMarg_rts _ _ bs _ LT h7 (by rw [hfold]) (by rw [h3, hfold])] at h8
  simp only [sForm, SElem.mk.injEq] at h8
  exact ⟨s, e.D, h5, by simp [SmootherState.mean, h6, h8.1], by simp [SmootherState.cholCov, h6], h8.2.2⟩

/-- **C136**, Kalman smoother. -/
theorem kalman_smoother_missing_limit (qr : QR) (rng rng' : Prng K) (cb : Callbacks nx ny Inp)
    (cb' : ℝ → Callbacks nx ny Inp) (z : Inp → Fin ny → ℝ) (u₀ : Inp) (us : List Inp) (hus : us ≠ [])
    (parallel parallel' : Bool) (key key' : Option K) (opts : SmootherOpts nx Inp)
    (h : ∀ κ > 0, FilledIn κ z cb (cb' κ) u₀ us) (hR : ∀ u ∈ us, (stepOf cb u).R.det ≠ 0)
    (hQ : ∀ u ∈ us, (stepOf cb u).cholQ.det ≠ 0) :
    ∃ filterStates states, (filter rng (buildFilter qr cb) (u₀ :: us) parallel key).result = .ok filterStates ∧
      (smoother rng' FilterState.modelInputs (fun u => .ok (opts.dummy u)) (buildSmoother qr cb.getDynamics opts)
        filterStates none parallel' key').result = .ok states ∧
      ∃ (filterStates' : ℝ → List (FilterState nx Inp)) (states' : ℝ → List (SmootherState nx Inp)),
        (∀ κ > 0, (filter rng (buildFilter qr (cb' κ)) (u₀ :: us) parallel key).result = .ok (filterStates' κ) ∧
          (smoother rng' FilterState.modelInputs (fun u => .ok (opts.dummy u))
            (buildSmoother qr (cb' κ).getDynamics opts) (filterStates' κ) none parallel' key').result = .ok (states' κ)) ∧
      ∀ t ≤ us.length, ∃ (s : SmootherState nx Inp) (m : Fin nx → ℝ) (L : Matrix (Fin nx) (Fin nx) ℝ)
        (s' : ℝ → SmootherState nx Inp) (m' : ℝ → Fin nx → ℝ) (L' : ℝ → Matrix (Fin nx) (Fin nx) ℝ),
        states[t]? = some s ∧ s.mean = some m ∧ s.cholCov = some L ∧
        (∀ κ > 0, (states' κ)[t]? = some (s' κ) ∧ (s' κ).mean = some (m' κ) ∧ (s' κ).cholCov = some (L' κ)) ∧
        (∀ i, Tendsto (fun κ => m' κ i) atTop (𝓝 (m i))) ∧
        ∀ i j, Tendsto (fun κ => (L' κ * (L' κ)ᵀ) i j) atTop (𝓝 ((L * Lᵀ) i j)) := by
  obtain ⟨fs, h1, ss, h2, h3⟩ := smoother_rts qr rng rng' cb u₀ us hus parallel parallel' key key' opts hR hQ
  have hrun : ∀ κ : ℝ, ∃ (fs' : List (FilterState nx Inp)) (ss' : List (SmootherState nx Inp)), κ > 0 →
      (filter rng (buildFilter qr (cb' κ)) (u₀ :: us) parallel key).result = .ok fs' ∧
      (smoother rng' FilterState.modelInputs (fun u => .ok (opts.dummy u))
          (buildSmoother qr (cb' κ).getDynamics opts) fs' none parallel' key').result = .ok ss' ∧
        ∀ t ≤ us.length, ∃ s L, ss'[t]? = some s ∧
          s.mean = some (rts (kfAt (cb' κ) u₀ us t) ((us.drop t).map (stepOf (cb' κ)))).1 ∧ s.cholCov = some L ∧
          L * Lᵀ = (rts (kfAt (cb' κ) u₀ us t) ((us.drop t).map (stepOf (cb' κ)))).2 := by
    intro κ
    by_cases hκ : κ > 0
    · obtain ⟨fs', a1, ss', a2, a3⟩ := smoother_rts qr rng rng' (cb' κ) u₀ us hus parallel parallel' key key' opts
        ((h κ hκ).R_det hκ hR) (fun u hu => by rw [(h κ hκ).Q u hu]; exact hQ u hu)
      exact ⟨fs', ss', fun _ => ⟨a1, a2, a3⟩⟩
    · exact ⟨fs, ss, fun h => absurd h hκ⟩
  choose fs' ss' hr using hrun
  refine ⟨fs, ss, h1, h2, fs', ss', fun κ hκ => ⟨(hr κ hκ).1, (hr κ hκ).2.1⟩, fun t ht => ?_⟩
  obtain ⟨k, hk, hkg, hk0, hkκ⟩ := FilledIn.tendsto h hR t
  obtain ⟨s, L, hs, hm, hL, hLP⟩ := h3 t ht
  have hrun' : ∀ κ : ℝ, ∃ (s' : SmootherState nx Inp) (L' : Matrix (Fin nx) (Fin nx) ℝ), κ > 0 →
      (ss' κ)[t]? = some s' ∧ s'.mean = some (rts (kfAt (cb' κ) u₀ us t) ((us.drop t).map (stepOf (cb' κ)))).1 ∧
        s'.cholCov = some L' ∧ L' * L'ᵀ = (rts (kfAt (cb' κ) u₀ us t) ((us.drop t).map (stepOf (cb' κ)))).2 := by
    intro κ
    by_cases hκ : κ > 0
    · obtain ⟨s', L', a⟩ := (hr κ hκ).2.2 t ht
      exact ⟨s', L', fun _ => a⟩
    · exact ⟨s, L, fun h => absurd h hκ⟩
  choose s' L' hs' using hrun'
  have hR' : ∀ u ∈ us.drop t, (stepOf cb u).R.det ≠ 0 := fun u hu => hR u (List.mem_of_mem_drop hu)
  have e0 : rts (kfAt cb u₀ us t) ((us.drop t).map (stepOf cb)) = scaledRts 0 z cb (k 0) (us.drop t) := by
    rw [← hk0, scaledRts_zero _ hR' (hkg 0)]
  have eκ : ∀ κ > 0, rts (kfAt (cb' κ) u₀ us t) ((us.drop t).map (stepOf (cb' κ))) =
      scaledRts (scaleOf κ) z cb (k (scaleOf κ)) (us.drop t) := fun κ hκ => by
    rw [hkκ κ hκ]
    exact (h κ hκ).rts (scaleOf_pos hκ) (scaleOf_sq hκ) hR _ (fun _ => List.mem_of_mem_drop) _ (hkg _)
  obtain ⟨r1, r2⟩ := smooth_scaledRts (z := z) (us.drop t) hR' (fun u hu => hQ u (List.mem_of_mem_drop hu)) hk hkg
  refine ⟨s, _, L, s', fun κ => (rts (kfAt (cb' κ) u₀ us t) ((us.drop t).map (stepOf (cb' κ)))).1, L', hs, hm, hL,
    fun κ hκ => ⟨(hs' κ hκ).1, (hs' κ hκ).2.1, (hs' κ hκ).2.2.1⟩, fun i => ?_, fun i j => ?_⟩
  · rw [e0]
    exact tendsto_of_smooth (r1 i) fun κ hκ => by dsimp only; rw [eκ κ hκ]
  · rw [hLP, e0]
    exact tendsto_of_smooth (r2 i j) fun κ hκ => by dsimp only; rw [(hs' κ hκ).2.2.2, eκ κ hκ]

end

end Cuthbert.Kalman
