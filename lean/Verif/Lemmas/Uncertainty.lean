import Mathlib.LinearAlgebra.Matrix.SchurComplement
import Verif.Lemmas.KalmanRun
import Verif.Spec.Uncertainty

/-!
# Monotonicity of conditional covariances
-/

namespace Cuthbert.Kalman
open Matrix Cuthbert Cuthbert.Spec

noncomputable section

set_option linter.unusedSectionVars false

variable {ι ο : Type*} [Fintype ι] [DecidableEq ι] [Fintype ο] [DecidableEq ο]

/-- The covariance after adding the information `J` to the covariance `P`: `(P⁻¹ + J)⁻¹` if `P` is nonsingular. -/
def par (P J : Matrix ι ι ℝ) : Matrix ι ι ℝ := elimD P J * P

section par
variable {P J : Matrix ι ι ℝ} (hP : IsGram P) (hJ : IsGram J)
include hP hJ

theorem par_left : (1 + P * J) * par P J = P := by
  rw [par, ← Matrix.mul_assoc, elimD_right hP hJ, Matrix.one_mul]

theorem par_unique {X : Matrix ι ι ℝ} (h : (1 + P * J) * X = P) : X = par P J := by
  calc X = elimD P J * (1 + P * J) * X := by rw [elimD_left hP hJ, Matrix.one_mul]
    _ = par P J := by rw [Matrix.mul_assoc, h, par]

theorem elimD_transpose_right : (elimD P J)ᵀ * (1 + J * P) = 1 := by
  have h := congrArg Matrix.transpose (elimD_right hP hJ)
  rwa [Matrix.transpose_mul, Matrix.transpose_add, Matrix.transpose_mul, hP.symm, hJ.symm,
    Matrix.transpose_one] at h

theorem elimD_transpose_left : (1 + J * P) * (elimD P J)ᵀ = 1 := by
  have h := congrArg Matrix.transpose (elimD_left hP hJ)
  rwa [Matrix.transpose_mul, Matrix.transpose_add, Matrix.transpose_mul, hP.symm, hJ.symm,
    Matrix.transpose_one] at h

theorem par_eq_transpose : par P J = P * (elimD P J)ᵀ := elimD_mul_C hP hJ

theorem par_right : par P J * (1 + J * P) = P := by
  rw [par_eq_transpose hP hJ, Matrix.mul_assoc, elimD_transpose_right hP hJ, Matrix.mul_one]

theorem par_gram : IsGram (par P J) := by
  have h : par P J = elimD P J * (P + P * J * Pᵀ) * (elimD P J)ᵀ := by
    have e : P + P * J * Pᵀ = (1 + P * J) * P := by rw [hP.symm, Matrix.add_mul, Matrix.one_mul]
    rw [e, ← Matrix.mul_assoc, elimD_left hP hJ, Matrix.one_mul, par_eq_transpose hP hJ]
  rw [h]
  exact (hP.add (hJ.conj P)).conj _

theorem par_comp {J' : Matrix ι ι ℝ} (hJ' : IsGram J') : par (par P J) J' = par P (J + J') := by
  refine par_unique hP (hJ.add hJ') ?_
  have h1 := par_left (par_gram hP hJ) hJ'
  have h2 := par_left hP hJ
  obtain ⟨X, hX⟩ : ∃ X, X = par P J := ⟨_, rfl⟩
  obtain ⟨Y, hY⟩ : ∃ Y, Y = par (par P J) J' := ⟨_, rfl⟩
  rw [← hY, ← hX] at h1
  rw [← hX] at h2
  rw [← hY]
  have e : (1 + P * (J + J')) * Y = (1 + P * J) * Y + P * (J' * Y) := by
    simp only [Matrix.mul_add, Matrix.add_mul, Matrix.one_mul, Matrix.mul_assoc]
    abel
  have e2 : P * (J' * Y) = (1 + P * J) * (X * J' * Y) := by
    rw [Matrix.mul_assoc X, ← Matrix.mul_assoc _ X, h2]
  rw [e, e2, ← Matrix.mul_add]
  have e3 : Y + X * J' * Y = X := by
    rwa [Matrix.add_mul, Matrix.one_mul] at h1
  rw [e3, h2]

theorem par_le : Below (par P J) P := by
  have h1 := par_left hP hJ
  have h2 := par_right hP hJ
  obtain ⟨X, hX⟩ : ∃ X, X = par P J := ⟨_, rfl⟩
  have hg := par_gram hP hJ
  rw [← hX] at h1 h2 hg ⊢
  have e : P - X = X * J * Xᵀ + (X * J) * P * (X * J)ᵀ := by
    have e1 : P - X = P * J * X := by
      rw [Matrix.add_mul, Matrix.one_mul] at h1
      rw [sub_eq_iff_eq_add, add_comm, h1]
    have e2 : P = X + X * J * P := by
      conv_lhs => rw [← h2]
      rw [Matrix.mul_add, Matrix.mul_one, Matrix.mul_assoc]
    rw [e1, hg.symm, Matrix.transpose_mul, hg.symm, hJ.symm]
    conv_lhs => rw [e2]
    simp only [Matrix.add_mul, Matrix.mul_assoc]
  rw [Below, e, ← isGram_iff]
  exact (hJ.conj X).add (hP.conj _)

theorem par_mono {P' : Matrix ι ι ℝ} (h : Below P P') : Below (par P J) (par P' J) := by
  have hΔ : IsGram (P' - P) := isGram_iff.mpr h
  have hP' : IsGram P' := by
    have := hP.add hΔ
    rwa [add_sub_cancel] at this
  have hM := par_gram hJ hP
  have hZ := par_left hΔ hM
  obtain ⟨A, hA⟩ : ∃ A, A = elimD P J := ⟨_, rfl⟩
  obtain ⟨Z, hZe⟩ : ∃ Z, Z = par (P' - P) (par J P) := ⟨_, rfl⟩
  have hZg : IsGram Z := hZe ▸ par_gram hΔ hM
  rw [← hZe] at hZ
  have hMe : par J P = J * A := by
    rw [par_eq_transpose hJ hP, hA, elimD, elimD, Matrix.transpose_nonsing_inv, Matrix.transpose_add,
      Matrix.transpose_mul, hP.symm, hJ.symm, Matrix.transpose_one]
  have hX1 : par P J = P * Aᵀ := by rw [hA]; exact par_eq_transpose hP hJ
  have hl := par_left hP hJ
  have hr : (1 + P * J) * A = 1 := by rw [hA]; exact elimD_right hP hJ
  have ht : (1 + J * P) * Aᵀ = 1 := by rw [hA]; exact elimD_transpose_left hP hJ
  have e : par P J + A * Z * Aᵀ = par P' J := by
    refine par_unique hP' hJ ?_
    obtain ⟨Δ, hΔe⟩ : ∃ Δ, Δ = P' - P := ⟨_, rfl⟩
    have hPΔ : P' = P + Δ := by rw [hΔe]; abel
    rw [← hΔe, hMe] at hZ
    have e1 : (1 + P' * J) * (par P J + A * Z * Aᵀ) = (1 + P * J) * par P J + Δ * (J * par P J) +
        (1 + P * J) * A * Z * Aᵀ + Δ * (J * A) * Z * Aᵀ := by
      rw [hPΔ]
      simp only [Matrix.mul_add, Matrix.add_mul, Matrix.one_mul, Matrix.mul_assoc]
      abel
    have e2 : Z * Aᵀ + Δ * (J * A) * Z * Aᵀ = Δ * Aᵀ := by
      rw [← Matrix.add_mul]
      congr 1
      rwa [Matrix.add_mul, Matrix.one_mul] at hZ
    have e3 : Δ * (J * par P J) + Δ * Aᵀ = Δ := by
      rw [← Matrix.mul_add, hX1, ← Matrix.mul_assoc J, add_comm]
      rw [Matrix.add_mul, Matrix.one_mul] at ht
      rw [ht, Matrix.mul_one]
    rw [e1, hl, hr, Matrix.one_mul, add_assoc, e2, add_assoc, e3, ← hPΔ]
  rw [Below, ← e, add_sub_cancel_left, ← isGram_iff]
  exact hZg.conj A

theorem par_anti {J' : Matrix ι ι ℝ} (h : Below J' J) (hJ' : IsGram J') : Below (par P J) (par P J') := by
  have hΔ : IsGram (J - J') := isGram_iff.mpr h
  have e : par P J = par (par P J') (J - J') := by
    rw [par_comp hP hJ' hΔ, add_sub_cancel]
  rw [e]
  exact par_le (par_gram hP hJ') hΔ

end par

theorem _root_.Cuthbert.Spec.Below.trans {A B C : Matrix ι ι ℝ} (h : Below A B) (h' : Below B C) : Below A C := by
  have := Matrix.PosSemidef.add h' h
  rwa [sub_add_sub_cancel] at this

theorem _root_.Cuthbert.Spec.Below.refl (A : Matrix ι ι ℝ) : Below A A := by
  rw [Below, sub_self]
  exact Matrix.PosSemidef.zero

theorem _root_.Cuthbert.Spec.Below.antisymm {A B : Matrix ι ι ℝ} (h : Below A B) (h' : Below B A) : A = B := by
  open scoped MatrixOrder in exact le_antisymm (Matrix.le_iff.mpr h) (Matrix.le_iff.mpr h')

theorem _root_.Cuthbert.Spec.Below.add {A B C D : Matrix ι ι ℝ} (h : Below A B) (h' : Below C D) : Below (A + C) (B + D) := by
  have := Matrix.PosSemidef.add h h'
  rwa [Below, add_sub_add_comm]

theorem _root_.Cuthbert.Spec.Below.conj {A B : Matrix ι ι ℝ} (h : Below A B) (F : Matrix ο ι ℝ) : Below (F * A * Fᵀ) (F * B * Fᵀ) := by
  have h1 := (isGram_iff.mpr h).conj F
  rw [Below, ← isGram_iff]
  rwa [Matrix.mul_sub, Matrix.sub_mul] at h1

/-- The information in a noisy observation. -/
def obsInfo (H : Matrix ο ι ℝ) (R : Matrix ο ο ℝ) : Matrix ι ι ℝ := Hᵀ * R⁻¹ * H

theorem obsInfo_gram {H : Matrix ο ι ℝ} {R : Matrix ο ο ℝ} (hR : IsGram R) : IsGram (obsInfo H R) := by
  have := hR.inv.conj Hᵀ
  rwa [Matrix.transpose_transpose] at this

theorem condCov_eq_par {P : Matrix ι ι ℝ} {H : Matrix ο ι ℝ} {R : Matrix ο ο ℝ} (hP : IsGram P) (hR : IsGram R)
    (hd : R.det ≠ 0) : condCov P H R = par P (obsInfo H R) := by
  refine par_unique hP (obsInfo_gram hR) ?_
  have hS : (innovCov P H R).det ≠ 0 := by
    rw [innovCov, add_comm]
    exact hR.det_add_ne_zero hd (hP.conj H)
  obtain ⟨S, hSe⟩ : ∃ S, S = innovCov P H R := ⟨_, rfl⟩
  rw [condCov, ← hSe, obsInfo]
  rw [← hSe] at hS
  have e0 : H * P * Hᵀ = S - R := by rw [hSe, innovCov, add_sub_cancel_right]
  have e1 : R⁻¹ * (H * P * Hᵀ) * S⁻¹ = R⁻¹ - S⁻¹ := by
    rw [e0, Matrix.mul_sub, Matrix.sub_mul, Matrix.nonsing_inv_mul _ (isUnit_iff_ne_zero.mpr hd), Matrix.one_mul,
      Matrix.mul_assoc, Matrix.mul_nonsing_inv _ (isUnit_iff_ne_zero.mpr hS), Matrix.mul_one]
  have e2 : P * (Hᵀ * R⁻¹ * H) * (P * (Hᵀ * S⁻¹ * H) * P) = P * Hᵀ * (R⁻¹ * (H * P * Hᵀ) * S⁻¹) * H * P := by
    simp only [Matrix.mul_assoc]
  rw [Matrix.add_mul, Matrix.one_mul, Matrix.mul_sub, e2, e1]
  simp only [Matrix.mul_sub, Matrix.sub_mul, Matrix.mul_assoc]
  abel

/-- Covariance of `x_t` given everything, from that of `x_{t+1}`. -/
theorem backward_cov {P F Q Λ : Matrix ι ι ℝ} (hP : IsGram P) (hQ : IsGram Q) (hΛ : IsGram Λ)
    (hd : (innovCov P F Q).det ≠ 0) :
    (P * Fᵀ * (innovCov P F Q)⁻¹) * par (innovCov P F Q) Λ * (P * Fᵀ * (innovCov P F Q)⁻¹)ᵀ + condCov P F Q =
      par P (Fᵀ * par Λ Q * F) := by
  have hS : IsGram (innovCov P F Q) := innovCov_gram hP hQ
  obtain ⟨S, hSe⟩ : ∃ S, S = innovCov P F Q := ⟨_, rfl⟩
  rw [condCov, ← hSe]
  rw [← hSe] at hS hd
  have hSi : (S⁻¹)ᵀ = S⁻¹ := by rw [Matrix.transpose_nonsing_inv, hS.symm]
  have hu := isUnit_iff_ne_zero.mpr hd
  have hX1 := par_left hS hΛ
  have hX2 := par_right hS hΛ
  obtain ⟨X, hXe⟩ : ∃ X, X = par S Λ := ⟨_, rfl⟩
  rw [← hXe] at hX1 hX2 ⊢
  have e1 : X * S⁻¹ = 1 - X * Λ := by
    have h : X = S - X * Λ * S := by
      rw [Matrix.mul_add, Matrix.mul_one] at hX2
      rw [eq_sub_iff_add_eq, Matrix.mul_assoc, hX2]
    have h' : X * S⁻¹ = (S - X * Λ * S) * S⁻¹ := by rw [← h]
    rw [h', Matrix.sub_mul, Matrix.mul_nonsing_inv _ hu, Matrix.mul_assoc, Matrix.mul_nonsing_inv _ hu, Matrix.mul_one]
  have e2 : S⁻¹ * X = 1 - Λ * X := by
    have h : X = S - S * Λ * X := by
      rw [Matrix.add_mul, Matrix.one_mul] at hX1
      rw [eq_sub_iff_add_eq, hX1]
    have h' : S⁻¹ * X = S⁻¹ * (S - S * Λ * X) := by rw [← h]
    rw [h', Matrix.mul_sub, Matrix.nonsing_inv_mul _ hu, Matrix.mul_assoc S, ← Matrix.mul_assoc S⁻¹,
      Matrix.nonsing_inv_mul _ hu, Matrix.one_mul]
  have e3 : S⁻¹ * X * S⁻¹ = S⁻¹ - (Λ - Λ * X * Λ) := by
    rw [e2, Matrix.sub_mul, Matrix.one_mul, Matrix.mul_assoc, e1, Matrix.mul_sub, Matrix.mul_one, Matrix.mul_assoc]
  have e4 : Λ - Λ * X * Λ = par Λ S := by
    refine par_unique hΛ hS ?_
    have : (1 + Λ * S) * (Λ - Λ * X * Λ) = Λ + Λ * S * Λ - Λ * ((1 + S * Λ) * X) * Λ := by
      simp only [Matrix.mul_sub, Matrix.add_mul, Matrix.one_mul, Matrix.mul_add, Matrix.mul_assoc]
    rw [this, hX1]
    simp
  have e5 : par Λ S = par (par Λ Q) (F * P * Fᵀ) := by
    rw [par_comp hΛ hQ (hP.conj F), hSe, innovCov, add_comm]
  have hM := par_gram hΛ hQ
  have hN := par_left hM (hP.conj F)
  obtain ⟨M, hMe⟩ : ∃ M, M = par Λ Q := ⟨_, rfl⟩
  obtain ⟨N, hNe⟩ : ∃ N, N = par Λ S := ⟨_, rfl⟩
  have hFM : IsGram (Fᵀ * M * F) := by
    have := hM.conj Fᵀ
    rwa [Matrix.transpose_transpose, ← hMe] at this
  rw [← e5, ← hNe, ← hMe] at hN
  rw [← hMe]
  refine par_unique hP hFM ?_
  have e6 : P * Fᵀ * S⁻¹ * X * (P * Fᵀ * S⁻¹)ᵀ = P * Fᵀ * (S⁻¹ * X * S⁻¹) * F * P := by
    rw [Matrix.transpose_mul, Matrix.transpose_mul, hSi, hP.symm, Matrix.transpose_transpose]
    simp only [Matrix.mul_assoc]
  have e7 : P * Fᵀ * S⁻¹ * X * (P * Fᵀ * S⁻¹)ᵀ + (P - P * (Fᵀ * S⁻¹ * F) * P) = P - P * Fᵀ * N * F * P := by
    rw [e6, e3, e4, ← hNe]
    simp only [Matrix.mul_sub, Matrix.sub_mul, Matrix.mul_assoc]
    abel
  rw [e7]
  have e8 : (1 + P * (Fᵀ * M * F)) * (P - P * Fᵀ * N * F * P) =
      P + P * Fᵀ * M * F * P - P * Fᵀ * ((1 + M * (F * P * Fᵀ)) * N) * F * P := by
    simp only [Matrix.mul_sub, Matrix.add_mul, Matrix.one_mul, Matrix.mul_add, Matrix.mul_assoc]
  rw [e8, hN, add_sub_cancel_right]

/-- Fewer and noisier observations carry less information. -/
theorem inv_selection {R : Matrix ο ο ℝ} {ο' : Type*} [Fintype ο'] [DecidableEq ο'] {E : Matrix ο' ο ℝ}
    {S : Matrix ο' ο' ℝ} (hR : R.PosDef) (hS : S.PosDef) (h : Below (E * R * Eᵀ) S) :
    Below (Eᵀ * S⁻¹ * E) R⁻¹ := by
  have i1 := hR.inv.isUnit.invertible
  have i2 := hS.isUnit.invertible
  have i3 := hR.isUnit.invertible
  have h1 := hR.inv.fromBlocks₁₁ Eᵀ S
  have h2 := Matrix.PosDef.fromBlocks₂₂ R⁻¹ Eᵀ hS
  simp only [Matrix.conjTranspose_eq_transpose_of_trivial, Matrix.transpose_transpose] at h1 h2
  rw [Matrix.inv_inv_of_invertible] at h1
  exact h2.mp (h1.mpr h)

variable {nx ny : ℕ}

/-- The information in the observation of a step. -/
def stepInfo (s : Step nx ny) : Matrix (Fin nx) (Fin nx) ℝ := obsInfo (obsH s.y s.H) s.R

theorem stepInfo_gram (s : Step nx ny) : IsGram (stepInfo s) := obsInfo_gram s.R_gram

/-- The information about `x_t` in the observations of the steps that follow. -/
def futureInfo : List (Step nx ny) → Matrix (Fin nx) (Fin nx) ℝ
  | [] => 0
  | s :: ss => s.Fᵀ * par (stepInfo s + futureInfo ss) (s.cholQ * s.cholQᵀ) * s.F

theorem futureInfo_gram : ∀ ss : List (Step nx ny), IsGram (futureInfo ss)
  | [] => isGram_zero
  | s :: ss => by
    have := (par_gram ((stepInfo_gram s).add (futureInfo_gram ss)) (isGram_of s.cholQ)).conj s.Fᵀ
    rwa [Matrix.transpose_transpose] at this

theorem kfStep_P (k : KF nx) (hk : IsGram k.P) (s : Step nx ny) (hR : s.R.det ≠ 0) :
    (kfStep k s).P = par (s.F * k.P * s.Fᵀ + s.cholQ * s.cholQᵀ) (stepInfo s) :=
  condCov_eq_par (pred_gram hk s) s.R_gram hR

theorem kfStep_gram (k : KF nx) (hk : IsGram k.P) (s : Step nx ny) (hR : s.R.det ≠ 0) : IsGram (kfStep k s).P := by
  rw [kfStep_P k hk s hR]
  exact par_gram (pred_gram hk s) (stepInfo_gram s)

theorem _root_.Cuthbert.IsBackward.gain {m : Fin nx → ℝ} {P : Matrix (Fin nx) (Fin nx) ℝ} {s : Step nx ny} {b : BStep nx}
    (h : IsBackward m P s b) : b.E = P * s.Fᵀ * (innovCov P s.F (s.cholQ * s.cholQᵀ))⁻¹ := by
  refine Matrix.ext_of_mulVec_single fun j => ?_
  have h1 := h.mean (Pi.single j 1)
  have h2 := h.mean 0
  rw [Matrix.mulVec_zero, zero_add] at h2
  rw [condMean] at h1 h2
  have h3 : b.E *ᵥ Pi.single j 1 = (b.E *ᵥ Pi.single j 1 + b.g) - b.g := by abel
  rw [h3, h1, h2, ← Matrix.mulVec_mulVec, ← Matrix.mulVec_mulVec, add_sub_add_left_eq_sub, ← Matrix.mulVec_sub,
    ← Matrix.mulVec_sub, ← Matrix.mulVec_sub]
  congr 3
  abel

/-- Smoothing covariances: the filtering covariance with the information from the future added. -/
theorem backMarg_cov : ∀ (ss : List (Step nx ny)) (k : KF nx) (bs : List (BStep nx)) (mT : Fin nx → ℝ)
    (LT : Matrix (Fin nx) (Fin nx) ℝ), IsGram k.P → (∀ s ∈ ss, s.R.det ≠ 0) → IsBackwardChain k ss bs →
    LT * LTᵀ = (ss.foldl kfStep k).P → (backMarg mT LT bs).2 = par k.P (futureInfo ss)
  | [], k, [], mT, LT, hk, _, _, hL => by
    refine par_unique hk isGram_zero ?_
    rw [Matrix.mul_zero, add_zero, Matrix.one_mul]
    exact hL
  | s :: ss, k, b :: bs, mT, LT, hk, hR, hc, hL => by
    have hRs := hR s List.mem_cons_self
    have ih := backMarg_cov ss (kfStep k s) bs mT LT (kfStep_gram k hk s hRs)
      (fun s' hs' => hR s' (List.mem_cons_of_mem _ hs')) hc.2 hL
    have hS : s.F * k.P * s.Fᵀ + s.cholQ * s.cholQᵀ = innovCov k.P s.F (s.cholQ * s.cholQᵀ) := rfl
    rw [kfStep_P k hk s hRs, par_comp (pred_gram hk s) (stepInfo_gram s) (futureInfo_gram ss), hS] at ih
    rw [backMarg, ih, hc.1.gain, hc.1.cov]
    exact backward_cov hk (isGram_of _) ((stepInfo_gram s).add (futureInfo_gram ss)) hc.1.det
  | [], _, _ :: _, _, _, _, _, hc, _ => hc.elim
  | _ :: _, _, [], _, _, _, _, hc, _ => hc.elim

theorem _root_.Cuthbert.Spec.Noisier.info {s s' : Step nx ny} (h : Noisier s s') (hR : s.R.det ≠ 0) :
    s'.R.det ≠ 0 ∧ Below (stepInfo s') (stepInfo s) := by
  have hsome : ∀ i : Obs s'.y, (s.y i.1).isNone = false := fun i => by
    have := h.observed i.1 (by simpa using i.2)
    simpa using this
  let e : Obs s'.y → Obs s.y := fun i => ⟨i.1, hsome i⟩
  let E : Matrix (Obs s'.y) (Obs s.y) ℝ := (1 : Matrix (Obs s.y) (Obs s.y) ℝ).submatrix e id
  have hE : ∀ {κ : Type} (A : Matrix (Obs s.y) κ ℝ), E * A = A.submatrix e id := fun A => by
    ext i j
    simp [E, Matrix.mul_apply, Matrix.one_apply]
  have hER : E * s.R * Eᵀ = s.R.submatrix e e := by
    rw [hE]
    ext i j
    simp [E, Matrix.mul_apply, Matrix.one_apply]
  have hinj : Function.Injective e := fun i j hij => Subtype.ext (Subtype.mk.inj hij)
  have hRd : s.R.PosDef := s.R_gram.posDef hR
  have hB : Below (E * s.R * Eᵀ) s'.R := by
    rw [hER]
    have h1 := Matrix.PosSemidef.submatrix h.R (fun i : Obs s'.y => i.1)
    exact h1
  have hR' : s'.R.PosDef := by
    have h1 : (s.R.submatrix e e).PosDef := hRd.submatrix hinj
    have h2 := h1.add_posSemidef (hER ▸ hB)
    rwa [add_sub_cancel] at h2
  refine ⟨hR'.det_pos.ne', ?_⟩
  have h3 := (inv_selection hRd hR' hB).conj (obsH s.y s.H)ᵀ
  have h4 : stepInfo s' = (obsH s.y s.H)ᵀ * (Eᵀ * s'.R⁻¹ * E) * (obsH s.y s.H)ᵀᵀ := by
    have h5 : obsH s'.y s'.H = E * obsH s.y s.H := by
      rw [hE, h.H]
      rfl
    rw [stepInfo, obsInfo, h5, Matrix.transpose_mul, Matrix.transpose_transpose]
    simp only [Matrix.mul_assoc]
  rw [h4]
  rw [Matrix.transpose_transpose] at h3 ⊢
  exact h3

theorem kfStep_mono {k k' : KF nx} {s s' : Step nx ny} (hk : IsGram k.P) (hk' : IsGram k'.P) (h : Below k.P k'.P)
    (hs : Noisier s s') (hR : s.R.det ≠ 0) : Below (kfStep k s).P (kfStep k' s').P := by
  obtain ⟨h1, h2⟩ := hs.info hR
  rw [kfStep_P k hk s hR, kfStep_P k' hk' s' h1]
  refine (par_anti (pred_gram hk s) (stepInfo_gram s) h2 (stepInfo_gram s')).trans
    (par_mono (pred_gram hk s) (stepInfo_gram s') ?_)
  rw [hs.F]
  exact (h.conj s.F).add hs.Q

theorem kf_mono : ∀ (ss ss' : List (Step nx ny)) (k k' : KF nx), List.Forall₂ Noisier ss ss' →
    (∀ s ∈ ss, s.R.det ≠ 0) → IsGram k.P → IsGram k'.P → Below k.P k'.P →
    Below (ss.foldl kfStep k).P (ss'.foldl kfStep k').P
  | [], [], _, _, _, _, _, _, h => h
  | s :: ss, s' :: ss', k, k', .cons h1 h2, hR, hk, hk', h =>
    kf_mono ss ss' _ _ h2 (fun s'' hs'' => hR s'' (List.mem_cons_of_mem _ hs''))
      (kfStep_gram k hk s (hR s List.mem_cons_self))
      (kfStep_gram k' hk' s' (h1.info (hR s List.mem_cons_self)).1)
      (kfStep_mono hk hk' h h1 (hR s List.mem_cons_self))

theorem futureInfo_anti : ∀ (ss ss' : List (Step nx ny)), List.Forall₂ Noisier ss ss' →
    (∀ s ∈ ss, s.R.det ≠ 0) → Below (futureInfo ss') (futureInfo ss)
  | [], [], _, _ => Below.refl _
  | s :: ss, s' :: ss', .cons h1 h2, hR => by
    have ih := futureInfo_anti ss ss' h2 fun s'' hs'' => hR s'' (List.mem_cons_of_mem _ hs'')
    have h3 := (h1.info (hR s List.mem_cons_self)).2.add ih
    have g := (stepInfo_gram s).add (futureInfo_gram ss)
    have g' := (stepInfo_gram s').add (futureInfo_gram ss')
    have h4 := (par_anti g' (isGram_of s'.cholQ) h1.Q (isGram_of s.cholQ)).trans
      (par_mono g' (isGram_of s.cholQ) h3)
    have h5 := h4.conj s.Fᵀ
    rw [futureInfo, futureInfo, h1.F]
    rwa [Matrix.transpose_transpose] at h5

end

end Cuthbert.Kalman
