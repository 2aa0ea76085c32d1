import Mathlib.LinearAlgebra.Matrix.NonsingularInverse
import Mathlib.LinearAlgebra.Matrix.SchurComplement
import Mathlib.LinearAlgebra.Matrix.PosDef
import Mathlib.Analysis.Matrix.PosDef
import Mathlib.Analysis.Matrix.Order
import Mathlib.Analysis.SpecialFunctions.Log.Basic
import Mathlib.Tactic.Abel
import Mathlib.Tactic.LinearCombination
import Verif.Spec.Gaussian

/-!
# Algebra of Kalman filtering elements in covariance form

A filtering element `(A, b, C, η, J, ℓ)` stands for the relation
`x₁ = A x₀ + b + C λ₁`, `λ₀ = Aᵀ λ₁ + η - J x₀`; combining two elements eliminates the intermediate
pair `(x₁, λ₁)`. Associativity and exactness follow from this reading.
-/

namespace Cuthbert
open Matrix
open scoped MatrixOrder ComplexOrder Matrix.Norms.L2Operator

noncomputable section

set_option linter.unusedSectionVars false

variable {ι ο : Type*} [Fintype ι] [DecidableEq ι] [Fintype ο] [DecidableEq ο]

/-- Covariance form of a filtering element. -/
@[ext] structure CElem (ι : Type*) where
  A : Matrix ι ι ℝ
  b : ι → ℝ
  C : Matrix ι ι ℝ
  eta : ι → ℝ
  J : Matrix ι ι ℝ
  ell : ℝ

/-- The real symmetric positive semidefinite matrices. -/
def IsGram {ι : Type*} [Fintype ι] (C : Matrix ι ι ℝ) : Prop := ∃ U : Matrix ι ι ℝ, C = U * Uᵀ

theorem IsGram.symm {C : Matrix ι ι ℝ} (h : IsGram C) : Cᵀ = C := by
  obtain ⟨U, rfl⟩ := h
  rw [Matrix.transpose_mul, Matrix.transpose_transpose]

theorem posSemidef_gram {κ : Type*} [Fintype κ] (U : Matrix ι κ ℝ) : (U * Uᵀ).PosSemidef := by
  have := Matrix.posSemidef_self_mul_conjTranspose U
  rwa [Matrix.conjTranspose_eq_transpose_of_trivial] at this

theorem isGram_iff {C : Matrix ι ι ℝ} : IsGram C ↔ C.PosSemidef := by
  constructor
  · rintro ⟨U, rfl⟩; exact posSemidef_gram U
  · intro h
    obtain ⟨B, hB⟩ := CStarAlgebra.nonneg_iff_eq_star_mul_self.mp h.nonneg
    exact ⟨Bᵀ, by rw [hB, Matrix.transpose_transpose, Matrix.star_eq_conjTranspose,
      Matrix.conjTranspose_eq_transpose_of_trivial]⟩

theorem isGram_of {κ : Type*} [Fintype κ] (U : Matrix ι κ ℝ) : IsGram (U * Uᵀ) :=
  isGram_iff.mpr (posSemidef_gram U)

theorem IsGram.add {C D : Matrix ι ι ℝ} (h : IsGram C) (h' : IsGram D) : IsGram (C + D) := by
  rw [isGram_iff] at *
  exact h.add h'

theorem IsGram.conj {κ : Type*} [Fintype κ] [DecidableEq κ] {C : Matrix ι ι ℝ} (h : IsGram C)
    (A : Matrix κ ι ℝ) : IsGram (A * C * Aᵀ) := by
  obtain ⟨U, rfl⟩ := h
  have : A * (U * Uᵀ) * Aᵀ = (A * U) * (A * U)ᵀ := by
    rw [Matrix.transpose_mul]; simp only [Matrix.mul_assoc]
  rw [this]; exact isGram_of _

theorem isGram_zero : IsGram (0 : Matrix ι ι ℝ) := ⟨0, by simp⟩

theorem det_one_add_gram_pos {κ : Type*} [Fintype κ] (M : Matrix ι κ ℝ) : 0 < (1 + M * Mᵀ).det :=
  (Matrix.PosDef.one.add_posSemidef (posSemidef_gram M)).det_pos

theorem det_one_add_mul_pos {C J : Matrix ι ι ℝ} (hC : IsGram C) (hJ : IsGram J) :
    0 < (1 + C * J).det := by
  obtain ⟨U, rfl⟩ := hC
  obtain ⟨Z, rfl⟩ := hJ
  rw [Matrix.mul_assoc, Matrix.det_one_add_mul_comm]
  have : Uᵀ * (Z * Zᵀ) * U = (Uᵀ * Z) * (Uᵀ * Z)ᵀ := by
    rw [Matrix.transpose_mul, Matrix.transpose_transpose]; simp only [Matrix.mul_assoc]
  rw [this]
  exact det_one_add_gram_pos _

/-- `(1 + C J)⁻¹`. -/
def elimD (C J : Matrix ι ι ℝ) : Matrix ι ι ℝ := (1 + C * J)⁻¹

section elim
variable {C J : Matrix ι ι ℝ} (hC : IsGram C) (hJ : IsGram J)
include hC hJ

theorem elimD_left : elimD C J * (1 + C * J) = 1 :=
  Matrix.nonsing_inv_mul _ (isUnit_iff_ne_zero.mpr (det_one_add_mul_pos hC hJ).ne')

theorem elimD_right : (1 + C * J) * elimD C J = 1 :=
  Matrix.mul_nonsing_inv _ (isUnit_iff_ne_zero.mpr (det_one_add_mul_pos hC hJ).ne')

theorem elimD_det : (elimD C J).det = ((1 + C * J).det)⁻¹ := by
  rw [elimD, Matrix.det_nonsing_inv, Ring.inverse_eq_inv]

theorem elimD_transpose : (elimD C J)ᵀ = 1 - J * elimD C J * C := by
  have h : (elimD C J)ᵀ = (1 + J * C)⁻¹ := by
    rw [elimD, Matrix.transpose_nonsing_inv, Matrix.transpose_add, Matrix.transpose_mul, hC.symm,
      hJ.symm, Matrix.transpose_one]
  rw [h]
  apply Matrix.inv_eq_right_inv
  have h2 := elimD_right hC hJ
  rw [Matrix.add_mul, Matrix.one_mul] at h2
  have h3 : C * J * elimD C J = 1 - elimD C J := by rw [← h2]; abel
  have h4 : J * C * (J * elimD C J * C) = J * (C * J * elimD C J) * C := by
    simp only [Matrix.mul_assoc]
  rw [Matrix.add_mul, Matrix.one_mul, Matrix.mul_sub, Matrix.mul_one, h4, h3, Matrix.mul_sub,
    Matrix.sub_mul, Matrix.mul_one]
  abel

theorem J_mul_elimD : J * elimD C J = (elimD C J)ᵀ * J := by
  have h := elimD_left hC hJ
  rw [elimD_transpose hC hJ, Matrix.sub_mul, Matrix.one_mul]
  have h1 : elimD C J * (C * J) = 1 - elimD C J := by
    rw [← h, Matrix.mul_add, Matrix.mul_one]; abel
  have h2 : J * elimD C J * C * J = J * (elimD C J * (C * J)) := by simp only [Matrix.mul_assoc]
  rw [h2, h1, Matrix.mul_sub, Matrix.mul_one]
  abel

theorem elimD_mul_C : elimD C J * C = C * (elimD C J)ᵀ := by
  have h := elimD_right hC hJ
  rw [elimD_transpose hC hJ, Matrix.mul_sub, Matrix.mul_one]
  have h1 : C * J * elimD C J = 1 - elimD C J := by
    rw [← h, Matrix.add_mul, Matrix.one_mul]; abel
  have h2 : C * (J * elimD C J * C) = (C * J * elimD C J) * C := by simp only [Matrix.mul_assoc]
  rw [h2, h1, Matrix.sub_mul, Matrix.one_mul]
  abel

end elim

/-- Combination of two elements in covariance form. -/
def CElem.op (e₁ e₂ : CElem ι) : CElem ι :=
  let D := elimD e₁.C e₂.J
  let t := D *ᵥ (e₁.b + e₁.C *ᵥ e₂.eta)
  { A := e₂.A * D * e₁.A
    b := e₂.A *ᵥ t + e₂.b
    C := e₂.A * (D * e₁.C) * e₂.Aᵀ + e₂.C
    eta := e₁.Aᵀ *ᵥ (Dᵀ *ᵥ (e₂.eta - e₂.J *ᵥ e₁.b)) + e₁.eta
    J := e₁.Aᵀ * (e₂.J * D) * e₁.A + e₁.J
    ell := e₁.ell + e₂.ell + 1 / 2 * Real.log D.det
      + 1 / 2 * (e₂.eta ⬝ᵥ t + (e₂.eta - e₂.J *ᵥ t) ⬝ᵥ e₁.b) }

/-- The intermediate pair satisfies the two defining equations. -/
def Chain (e₁ e₂ : CElem ι) (x₀ l₂ x₁ l₁ : ι → ℝ) : Prop :=
  x₁ = e₁.A *ᵥ x₀ + e₁.b + e₁.C *ᵥ l₁ ∧ l₁ = e₂.Aᵀ *ᵥ l₂ + e₂.eta - e₂.J *ᵥ x₁

/-- Forward output of an element. -/
def CElem.fwd (e : CElem ι) (x₀ l₁ : ι → ℝ) : ι → ℝ := e.A *ᵥ x₀ + e.b + e.C *ᵥ l₁

/-- Backward output of an element. -/
def CElem.bwd (e : CElem ι) (x₀ l₁ : ι → ℝ) : ι → ℝ := e.Aᵀ *ᵥ l₁ + e.eta - e.J *ᵥ x₀

/-- Covariance and information parts are positive semidefinite. -/
def CElem.Valid (e : CElem ι) : Prop := IsGram e.C ∧ IsGram e.J

theorem chain_x (e₁ e₂ : CElem ι) (h₁ : IsGram e₁.C) (h₂ : IsGram e₂.J) {x₀ l₂ x₁ l₁ : ι → ℝ}
    (h : Chain e₁ e₂ x₀ l₂ x₁ l₁) :
    x₁ = elimD e₁.C e₂.J *ᵥ (e₁.A *ᵥ x₀ + e₁.b + e₁.C *ᵥ (e₂.Aᵀ *ᵥ l₂ + e₂.eta)) := by
  have key : (1 + e₁.C * e₂.J) *ᵥ x₁ = e₁.A *ᵥ x₀ + e₁.b + e₁.C *ᵥ (e₂.Aᵀ *ᵥ l₂ + e₂.eta) := by
    have h1 := h.1
    rw [h.2, Matrix.mulVec_sub, Matrix.mulVec_mulVec] at h1
    rw [Matrix.add_mulVec, Matrix.one_mulVec]
    conv_lhs => enter [1]; rw [h1]
    abel
  rw [← key, Matrix.mulVec_mulVec, elimD_left h₁ h₂, Matrix.one_mulVec]

theorem chain_exists (e₁ e₂ : CElem ι) (h₁ : IsGram e₁.C) (h₂ : IsGram e₂.J) (x₀ l₂ : ι → ℝ) :
    ∃ x₁ l₁, Chain e₁ e₂ x₀ l₂ x₁ l₁ := by
  refine ⟨elimD e₁.C e₂.J *ᵥ (e₁.A *ᵥ x₀ + e₁.b + e₁.C *ᵥ (e₂.Aᵀ *ᵥ l₂ + e₂.eta)), _, ?_, rfl⟩
  set w := e₁.A *ᵥ x₀ + e₁.b + e₁.C *ᵥ (e₂.Aᵀ *ᵥ l₂ + e₂.eta) with hw
  have h := congrArg (fun M => M *ᵥ w) (elimD_right h₁ h₂)
  simp only [Matrix.one_mulVec, ← Matrix.mulVec_mulVec] at h
  rw [Matrix.add_mulVec, Matrix.one_mulVec] at h
  rw [Matrix.mulVec_sub, Matrix.mulVec_mulVec]
  have h' : elimD e₁.C e₂.J *ᵥ w = w - (e₁.C * e₂.J) *ᵥ (elimD e₁.C e₂.J *ᵥ w) := by
    rw [eq_sub_iff_add_eq]; exact h
  conv_lhs => rw [h', hw]
  abel

theorem chain_l (e₁ e₂ : CElem ι) (h₁ : IsGram e₁.C) (h₂ : IsGram e₂.J) {x₀ l₂ x₁ l₁ : ι → ℝ}
    (h : Chain e₁ e₂ x₀ l₂ x₁ l₁) :
    l₁ = (elimD e₁.C e₂.J)ᵀ *ᵥ (e₂.Aᵀ *ᵥ l₂ + e₂.eta - e₂.J *ᵥ (e₁.A *ᵥ x₀ + e₁.b)) := by
  have hx := chain_x e₁ e₂ h₁ h₂ h
  rw [h.2, hx, Matrix.mulVec_sub, Matrix.mulVec_mulVec, Matrix.mulVec_mulVec,
    ← J_mul_elimD h₁ h₂]
  rw [Matrix.mulVec_add (e₂.J * elimD e₁.C e₂.J)]
  rw [elimD_transpose h₁ h₂, Matrix.sub_mulVec, Matrix.one_mulVec, ← Matrix.mulVec_mulVec _ _ e₁.C]
  abel

/-- Combining elements composes their relations. -/
theorem op_eval (e₁ e₂ : CElem ι) (h₁ : IsGram e₁.C) (h₂ : IsGram e₂.J) {x₀ l₂ x₁ l₁ : ι → ℝ}
    (h : Chain e₁ e₂ x₀ l₂ x₁ l₁) :
    (e₁.op e₂).fwd x₀ l₂ = e₂.fwd x₁ l₂ ∧ (e₁.op e₂).bwd x₀ l₂ = e₁.bwd x₀ l₁ := by
  constructor
  · rw [CElem.fwd, CElem.fwd, chain_x e₁ e₂ h₁ h₂ h]
    simp only [CElem.op, Matrix.add_mulVec, Matrix.mulVec_add, ← Matrix.mulVec_mulVec]
    abel
  · rw [CElem.bwd, CElem.bwd, chain_l e₁ e₂ h₁ h₂ h]
    simp only [CElem.op, Matrix.transpose_mul, Matrix.add_mulVec, Matrix.mulVec_add,
      Matrix.mulVec_sub, J_mul_elimD h₁ h₂, ← Matrix.mulVec_mulVec]
    abel

/-- The log-likelihood of the combination, evaluated on any chain. -/
theorem op_ell (e₁ e₂ : CElem ι) (h₁ : IsGram e₁.C) (h₂ : IsGram e₂.J) {x₀ l₂ x₁ l₁ : ι → ℝ}
    (h : Chain e₁ e₂ x₀ l₂ x₁ l₁) :
    (e₁.op e₂).ell = e₁.ell + e₂.ell + 1 / 2 * Real.log (elimD e₁.C e₂.J).det
      + 1 / 2 * (l₁ ⬝ᵥ e₁.b + x₁ ⬝ᵥ e₂.eta - x₀ ⬝ᵥ ((e₁.op e₂).eta - e₁.eta)
        - l₂ ⬝ᵥ ((e₁.op e₂).b - e₂.b)) := by
  obtain ⟨xo, lo, ho⟩ := chain_exists e₁ e₂ h₁ h₂ 0 0
  have hxo : xo = elimD e₁.C e₂.J *ᵥ (e₁.b + e₁.C *ᵥ e₂.eta) := by
    have := chain_x e₁ e₂ h₁ h₂ ho
    simpa using this
  have hlo : lo = (elimD e₁.C e₂.J)ᵀ *ᵥ (e₂.eta - e₂.J *ᵥ e₁.b) := by
    have := chain_l e₁ e₂ h₁ h₂ ho
    simpa using this
  have e1 : (e₁.op e₂).eta - e₁.eta = e₁.Aᵀ *ᵥ lo := by
    rw [hlo]; simp only [CElem.op]; abel
  have e2 : (e₁.op e₂).b - e₂.b = e₂.A *ᵥ xo := by
    rw [hxo]; simp only [CElem.op]; abel
  have e3 : (e₁.op e₂).ell = e₁.ell + e₂.ell + 1 / 2 * Real.log (elimD e₁.C e₂.J).det
      + 1 / 2 * (e₂.eta ⬝ᵥ xo + lo ⬝ᵥ e₁.b) := by
    have : lo = e₂.eta - e₂.J *ᵥ xo := by
      have := ho.2
      simpa using this
    rw [this, hxo]; rfl
  rw [e1, e2, e3]
  -- the four bilinear facts
  obtain ⟨k1, k2⟩ := h
  obtain ⟨o1, o2⟩ := ho
  rw [Matrix.mulVec_zero, zero_add] at o1 o2
  have f1 : x₀ ⬝ᵥ e₁.Aᵀ *ᵥ lo = (e₁.A *ᵥ x₀) ⬝ᵥ lo := by
    rw [Matrix.dotProduct_mulVec, ← Matrix.mulVec_transpose, Matrix.transpose_transpose]
  have f2 : l₂ ⬝ᵥ e₂.A *ᵥ xo = (e₂.Aᵀ *ᵥ l₂) ⬝ᵥ xo := by
    rw [Matrix.dotProduct_mulVec, ← Matrix.mulVec_transpose]
  have g1 : e₁.A *ᵥ x₀ = x₁ - e₁.b - e₁.C *ᵥ l₁ := by rw [k1]; abel
  have g2 : e₂.Aᵀ *ᵥ l₂ = l₁ - e₂.eta + e₂.J *ᵥ x₁ := by rw [k2]; abel
  have s1 : ∀ u v : ι → ℝ, (e₁.C *ᵥ u) ⬝ᵥ v = (e₁.C *ᵥ v) ⬝ᵥ u := by
    intro u v
    rw [dotProduct_comm, Matrix.dotProduct_mulVec, ← Matrix.mulVec_transpose, h₁.symm]
  have s2 : ∀ u v : ι → ℝ, (e₂.J *ᵥ u) ⬝ᵥ v = (e₂.J *ᵥ v) ⬝ᵥ u := by
    intro u v
    rw [dotProduct_comm, Matrix.dotProduct_mulVec, ← Matrix.mulVec_transpose, h₂.symm]
  have g3 : e₁.C *ᵥ lo = xo - e₁.b := by rw [eq_sub_iff_add_eq, add_comm]; exact o1.symm
  have g4 : e₂.J *ᵥ xo = e₂.eta - lo := by rw [eq_sub_iff_add_eq, add_comm, ← eq_sub_iff_add_eq]; exact o2
  rw [f1, f2, g1, g2]
  simp only [sub_dotProduct, add_dotProduct]
  rw [s1 l₁ lo, s2 x₁ xo, g3, g4]
  simp only [sub_dotProduct]
  rw [dotProduct_comm x₁ lo, dotProduct_comm e₁.b lo, dotProduct_comm e₁.b l₁, dotProduct_comm l₁ xo,
    dotProduct_comm x₁ e₂.eta]
  ring

theorem CElem.Valid.op {e₁ e₂ : CElem ι} (h₁ : e₁.Valid) (h₂ : e₂.Valid) : (e₁.op e₂).Valid := by
  have key : ∀ {C J : Matrix ι ι ℝ}, IsGram C → IsGram J → IsGram (elimD C J * C) ∧
      IsGram (J * elimD C J) := by
    intro C J hC hJ
    have hd := elimD_left hC hJ
    have hr := elimD_right hC hJ
    constructor
    · -- D C = D (C + C J C) Dᵀ
      have : elimD C J * C = elimD C J * (C + C * J * Cᵀ) * (elimD C J)ᵀ := by
        have h1 : C + C * J * Cᵀ = (1 + C * J) * C := by
          rw [hC.symm, Matrix.add_mul, Matrix.one_mul]
        rw [h1, ← Matrix.mul_assoc, hd, Matrix.one_mul, elimD_mul_C hC hJ]
      rw [this]
      exact (hC.add (hJ.conj C)).conj _
    · have : J * elimD C J = (elimD C J)ᵀ * (J + J * C * Jᵀ) * ((elimD C J)ᵀ)ᵀ := by
        have h1 : J + J * C * Jᵀ = J * (1 + C * J) := by
          rw [hJ.symm, Matrix.mul_add, Matrix.mul_one, Matrix.mul_assoc]
        rw [h1, Matrix.transpose_transpose, Matrix.mul_assoc, Matrix.mul_assoc J, hr,
          Matrix.mul_one, J_mul_elimD hC hJ]
      rw [this]
      exact (hJ.add (hC.conj J)).conj _
  constructor
  · exact ((key h₁.1 h₂.2).1.conj _).add h₂.1
  · have := (key h₁.1 h₂.2).2.conj e₁.Aᵀ
    rw [Matrix.transpose_transpose] at this
    exact this.add h₁.2

theorem eq_of_affine {A A' C C' : Matrix ι ι ℝ} {b b' : ι → ℝ}
    (h : ∀ x l : ι → ℝ, A *ᵥ x + b + C *ᵥ l = A' *ᵥ x + b' + C' *ᵥ l) : A = A' ∧ b = b' ∧ C = C' := by
  have hb : b = b' := by simpa using h 0 0
  subst hb
  refine ⟨?_, rfl, ?_⟩
  · apply Matrix.ext_of_mulVec_single
    intro i
    have := h (Pi.single i 1) 0
    simpa using this
  · apply Matrix.ext_of_mulVec_single
    intro i
    have := h 0 (Pi.single i 1)
    simpa using this

theorem det_chain (e₁ e₂ e₃ : CElem ι) (h₁ : e₁.Valid) (h₂ : e₂.Valid) (h₃ : e₃.Valid) :
    (elimD e₁.C e₂.J).det * (elimD (e₁.op e₂).C e₃.J).det =
      (elimD e₂.C e₃.J).det * (elimD e₁.C (e₂.op e₃).J).det := by
  have u12 : IsUnit (1 + e₁.C * e₂.J) :=
    (Matrix.isUnit_iff_isUnit_det _).mpr (isUnit_iff_ne_zero.mpr (det_one_add_mul_pos h₁.1 h₂.2).ne')
  have u23 : IsUnit (1 + e₂.C * e₃.J) :=
    (Matrix.isUnit_iff_isUnit_det _).mpr (isUnit_iff_ne_zero.mpr (det_one_add_mul_pos h₂.1 h₃.2).ne')
  have key : (1 + e₁.C * e₂.J).det * (1 + (e₁.op e₂).C * e₃.J).det =
      (1 + e₂.C * e₃.J).det * (1 + e₁.C * (e₂.op e₃).J).det := by
    let _ := u12.invertible
    let _ := u23.invertible
    have a := Matrix.det_fromBlocks₁₁ (1 + e₁.C * e₂.J) (e₁.C * e₂.Aᵀ * e₃.J) (-e₂.A) (1 + e₂.C * e₃.J)
    have b := Matrix.det_fromBlocks₂₂ (1 + e₁.C * e₂.J) (e₁.C * e₂.Aᵀ * e₃.J) (-e₂.A) (1 + e₂.C * e₃.J)
    rw [a, Matrix.invOf_eq_nonsing_inv, Matrix.invOf_eq_nonsing_inv] at b
    have c1 : 1 + e₂.C * e₃.J - -e₂.A * (1 + e₁.C * e₂.J)⁻¹ * (e₁.C * e₂.Aᵀ * e₃.J) =
        1 + (e₁.op e₂).C * e₃.J := by
      simp only [CElem.op, elimD, Matrix.add_mul, Matrix.neg_mul, Matrix.mul_assoc]
      abel
    have c2 : 1 + e₁.C * e₂.J - e₁.C * e₂.Aᵀ * e₃.J * (1 + e₂.C * e₃.J)⁻¹ * -e₂.A =
        1 + e₁.C * (e₂.op e₃).J := by
      simp only [CElem.op, elimD, Matrix.mul_add, Matrix.mul_neg, Matrix.mul_assoc]
      abel
    rw [c1, c2] at b
    exact b
  rw [elimD_det h₁.1 h₂.2, elimD_det (h₁.op h₂).1 h₃.2, elimD_det h₂.1 h₃.2,
    elimD_det h₁.1 (h₂.op h₃).2, ← mul_inv, ← mul_inv, key]

/-- **Associativity** of the covariance-form combination, including the log-likelihood. -/
theorem CElem.op_assoc (e₁ e₂ e₃ : CElem ι) (h₁ : e₁.Valid) (h₂ : e₂.Valid) (h₃ : e₃.Valid) :
    (e₁.op e₂).op e₃ = e₁.op (e₂.op e₃) := by
  have h12 := h₁.op h₂
  have h23 := h₂.op h₃
  -- common chains
  have common : ∀ x₀ l₃ : ι → ℝ, ∃ x₁ l₁ x₂ l₂ : ι → ℝ,
      Chain (e₁.op e₂) e₃ x₀ l₃ x₂ l₂ ∧ Chain e₁ e₂ x₀ l₂ x₁ l₁ ∧
      Chain e₂ e₃ x₁ l₃ x₂ l₂ ∧ Chain e₁ (e₂.op e₃) x₀ l₃ x₁ l₁ := by
    intro x₀ l₃
    obtain ⟨x₂, l₂, hA⟩ := chain_exists (e₁.op e₂) e₃ h12.1 h₃.2 x₀ l₃
    obtain ⟨x₁, l₁, hB⟩ := chain_exists e₁ e₂ h₁.1 h₂.2 x₀ l₂
    have hC : Chain e₂ e₃ x₁ l₃ x₂ l₂ := by
      refine ⟨?_, hA.2⟩
      have := (op_eval e₁ e₂ h₁.1 h₂.2 hB).1
      rw [hA.1]; exact this
    refine ⟨x₁, l₁, x₂, l₂, hA, hB, hC, hB.1, ?_⟩
    have := (op_eval e₂ e₃ h₂.1 h₃.2 hC).2
    exact hB.2.trans this.symm
  have hf : ∀ x₀ l₃, ((e₁.op e₂).op e₃).fwd x₀ l₃ = (e₁.op (e₂.op e₃)).fwd x₀ l₃ := by
    intro x₀ l₃
    obtain ⟨x₁, l₁, x₂, l₂, hA, hB, hC, hD⟩ := common x₀ l₃
    rw [(op_eval _ _ h12.1 h₃.2 hA).1, (op_eval _ _ h₁.1 h23.2 hD).1, (op_eval _ _ h₂.1 h₃.2 hC).1]
  have hb : ∀ x₀ l₃, ((e₁.op e₂).op e₃).bwd x₀ l₃ = (e₁.op (e₂.op e₃)).bwd x₀ l₃ := by
    intro x₀ l₃
    obtain ⟨x₁, l₁, x₂, l₂, hA, hB, hC, hD⟩ := common x₀ l₃
    rw [(op_eval _ _ h12.1 h₃.2 hA).2, (op_eval _ _ h₁.1 h23.2 hD).2, (op_eval _ _ h₁.1 h₂.2 hB).2]
  obtain ⟨q1, q2, q3⟩ := eq_of_affine (A := ((e₁.op e₂).op e₃).A) (A' := (e₁.op (e₂.op e₃)).A) hf
  obtain ⟨-, q4, q5⟩ := eq_of_affine (A := ((e₁.op e₂).op e₃).Aᵀ) (A' := (e₁.op (e₂.op e₃)).Aᵀ)
    (b := ((e₁.op e₂).op e₃).eta) (b' := (e₁.op (e₂.op e₃)).eta)
    (C := -((e₁.op e₂).op e₃).J) (C' := -(e₁.op (e₂.op e₃)).J) (by
      intro x l
      have := hb l x
      simp only [CElem.bwd, sub_eq_add_neg] at this
      simpa only [Matrix.neg_mulVec] using this)
  have q5' := neg_injective q5
  -- log-likelihoods
  have q6 : ((e₁.op e₂).op e₃).ell = (e₁.op (e₂.op e₃)).ell := by
    obtain ⟨x₁, l₁, x₂, l₂, hA, hB, hC, hD⟩ := common 0 0
    rw [op_ell _ _ h12.1 h₃.2 hA, op_ell _ _ h₁.1 h23.2 hD, op_ell _ _ h₁.1 h₂.2 hB,
      op_ell _ _ h₂.1 h₃.2 hC]
    simp only [zero_dotProduct, sub_zero]
    have hdet := det_chain e₁ e₂ e₃ h₁ h₂ h₃
    have pos : ∀ {C J : Matrix ι ι ℝ}, IsGram C → IsGram J → (elimD C J).det ≠ 0 := by
      intro C J hC hJ
      rw [elimD_det hC hJ]
      exact inv_ne_zero (det_one_add_mul_pos hC hJ).ne'
    have hlog := congrArg Real.log hdet
    rw [Real.log_mul (pos h₁.1 h₂.2) (pos h12.1 h₃.2), Real.log_mul (pos h₂.1 h₃.2) (pos h₁.1 h23.2)] at hlog
    simp only [dotProduct_sub]
    linear_combination (1 / 2) * hlog
  exact CElem.ext q1 q2 q3 q4 q5' q6

end

end Cuthbert
