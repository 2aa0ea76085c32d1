import Verif.Model.Linearize
import Verif.Props.Linalg
import Verif.Spec.Gaussian
import Mathlib.Analysis.Calculus.ContDiff.Operations
import Mathlib.Analysis.Calculus.Deriv.Pow
import Mathlib.Tactic.FunProp

/-!
# Lemmas about linearisation
-/

namespace Cuthbert.Linearize
open Matrix Cuthbert

noncomputable section

set_option linter.unusedSectionVars false

variable {nx ny n : ℕ} {Inp K : Type*}
variable {ι κ : Type*} [Fintype ι] [Fintype κ] [DecidableEq ι] [DecidableEq κ]

/-! ## Derivatives of quadratic forms -/

theorem quad_expand {P : Matrix ι ι ℝ} (hP : P.IsSymm) (w v : ι → ℝ) (t : ℝ) :
    (w + t • v) ⬝ᵥ P *ᵥ (w + t • v) = w ⬝ᵥ P *ᵥ w + t * (2 * (v ⬝ᵥ P *ᵥ w)) + t ^ 2 * (v ⬝ᵥ P *ᵥ v) := by
  have hs : w ⬝ᵥ P *ᵥ v = v ⬝ᵥ P *ᵥ w := by
    rw [Matrix.dotProduct_mulVec, ← Matrix.mulVec_transpose, hP.eq, dotProduct_comm]
  rw [Matrix.mulVec_add, Matrix.mulVec_smul, add_dotProduct, dotProduct_add, dotProduct_add,
    smul_dotProduct, smul_dotProduct, dotProduct_smul, dotProduct_smul, hs]
  simp only [smul_eq_mul]
  ring

theorem lineDeriv_quad {P : Matrix ι ι ℝ} (hP : P.IsSymm) (μ : ι → ℝ) (c : ℝ) (z v : ι → ℝ) :
    lineDeriv ℝ (fun z => -(1 / 2) * ((z - μ) ⬝ᵥ P *ᵥ (z - μ)) + c) z v = -(v ⬝ᵥ P *ᵥ (z - μ)) := by
  refine HasLineDerivAt.lineDeriv ?_
  have h : (fun t : ℝ => -(1 / 2) * ((z + t • v - μ) ⬝ᵥ P *ᵥ (z + t • v - μ)) + c) =
      fun t => -(1 / 2) * ((z - μ) ⬝ᵥ P *ᵥ (z - μ) + t * (2 * (v ⬝ᵥ P *ᵥ (z - μ))) +
        t ^ 2 * (v ⬝ᵥ P *ᵥ v)) + c := by
    funext t
    rw [← quad_expand hP, add_sub_right_comm]
  have key : HasDerivAt (fun t : ℝ => -(1 / 2) * ((z - μ) ⬝ᵥ P *ᵥ (z - μ) + t * (2 * (v ⬝ᵥ P *ᵥ (z - μ))) +
        t ^ 2 * (v ⬝ᵥ P *ᵥ v)) + c)
      (-(1 / 2) * (0 + 1 * (2 * (v ⬝ᵥ P *ᵥ (z - μ))) + (2 * (0 : ℝ) ^ 1 * 1) * (v ⬝ᵥ P *ᵥ v)) + 0) 0 := by
    refine ((((hasDerivAt_const _ _).add ((hasDerivAt_id (0 : ℝ)).mul_const _)).add
      (((hasDerivAt_id (0 : ℝ)).pow 2).mul_const _)).const_mul _).add (hasDerivAt_const _ _) |>.congr_deriv ?_
    simp
  rw [HasLineDerivAt, h]
  exact key.congr_deriv (by ring)

theorem lineDeriv_affine (a : (ι → ℝ) → ℝ) (f : ι → ℝ) (x v : ι → ℝ)
    (h : ∀ t : ℝ, a (x + t • v) = a x + t * (f ⬝ᵥ v)) : lineDeriv ℝ a x v = f ⬝ᵥ v := by
  refine HasLineDerivAt.lineDeriv ?_
  rw [HasLineDerivAt, show (fun t : ℝ => a (x + t • v)) = fun t => a x + t * (f ⬝ᵥ v) from funext h]
  refine ((hasDerivAt_const _ _).add ((hasDerivAt_id (0 : ℝ)).mul_const _)).congr_deriv ?_
  simp

/-- The Gaussian log density as a function of state and observation. -/
def quadForm (H : Matrix ι κ ℝ) (d : ι → ℝ) (P : Matrix ι ι ℝ) (c : ℝ) (x : κ → ℝ) (z : ι → ℝ) : ℝ :=
  -(1 / 2) * ((z - (H *ᵥ x + d)) ⬝ᵥ P *ᵥ (z - (H *ᵥ x + d))) + c

theorem contDiff_quadForm (H : Matrix ι κ ℝ) (d : ι → ℝ) (P : Matrix ι ι ℝ) (c : ℝ) :
    ContDiff ℝ 2 fun q : (κ → ℝ) × (ι → ℝ) => quadForm H d P c q.1 q.2 := by
  unfold quadForm
  simp only [dotProduct, mulVec, Pi.sub_apply, Pi.add_apply]
  fun_prop

theorem quadForm_grad {P : Matrix ι ι ℝ} (hP : P.IsSymm) (H : Matrix ι κ ℝ) (d : ι → ℝ) (c : ℝ)
    (x : κ → ℝ) (z : ι → ℝ) (i : ι) : lineDeriv ℝ (quadForm H d P c x) z (Pi.single i 1) =
      -(P *ᵥ (z - (H *ᵥ x + d))) i := by
  refine (lineDeriv_quad hP (H *ᵥ x + d) c z _).trans ?_
  rw [single_one_dotProduct]

theorem quadForm_hess {P : Matrix ι ι ℝ} (hP : P.IsSymm) (H : Matrix ι κ ℝ) (d : ι → ℝ) (c : ℝ)
    (x : κ → ℝ) (z : ι → ℝ) (i j : ι) :
    lineDeriv ℝ (fun z => lineDeriv ℝ (quadForm H d P c x) z (Pi.single i 1)) z (Pi.single j 1) =
      -P i j := by
  simp only [quadForm_grad hP]
  rw [lineDeriv_affine _ (fun k => -P i k)]
  · rw [dotProduct_single_one]
  · intro t
    rw [add_sub_right_comm, Matrix.mulVec_add, Matrix.mulVec_smul, Pi.add_apply, Pi.smul_apply,
      mulVec_single_one, dotProduct_single_one, smul_eq_mul, Matrix.col_apply]
    ring

theorem quadForm_jac {P : Matrix ι ι ℝ} (hP : P.IsSymm) (H : Matrix ι κ ℝ) (d : ι → ℝ) (c : ℝ)
    (x : κ → ℝ) (z : ι → ℝ) (i : ι) (j : κ) :
    lineDeriv ℝ (fun x => lineDeriv ℝ (quadForm H d P c x) z (Pi.single i 1)) x (Pi.single j 1) =
      (P * H) i j := by
  simp only [quadForm_grad hP]
  rw [lineDeriv_affine _ (fun k => (P * H) i k)]
  · rw [dotProduct_single_one]
  · intro t
    rw [Matrix.mulVec_add H, Matrix.mulVec_smul, dotProduct_single_one,
      show z - (H *ᵥ x + t • H *ᵥ Pi.single j 1 + d) = (z - (H *ᵥ x + d)) - t • H *ᵥ Pi.single j 1 by abel,
      Matrix.mulVec_sub, Matrix.mulVec_smul, Matrix.mulVec_mulVec, Pi.sub_apply, Pi.smul_apply,
      mulVec_single_one, Matrix.col_apply, smul_eq_mul]
    ring

theorem gaussLogDensity_quadForm (H : Matrix ι κ ℝ) (d : ι → ℝ) (S : Matrix ι ι ℝ) :
    ∃ c, ∀ x z, gaussLogDensity (H *ᵥ x + d) S z = quadForm H d S⁻¹ c x z :=
  ⟨- Fintype.card ι / 2 * Real.log (2 * Real.pi) - 1 / 2 * Real.log S.det, fun x z => by
    rw [gaussLogDensity, quadForm]; ring⟩

/-! ## `symmetric_inv_sqrt` on the observed components -/

theorem isNone_false {α : Type*} {o : Option α} : o.isNone = false ↔ o ≠ none := by
  cases o <;> simp

theorem isNone_true {α : Type*} {o : Option α} : o.isNone = true ↔ o = none := by
  cases o <;> simp

theorem sum_obs (y : Fin ny → Option ℝ) (f : Fin ny → ℝ) (h : ∀ i, y i = none → f i = 0) :
    ∑ i : Obs y, f i.1 = ∑ i, f i := by
  rw [← Finset.sum_subtype (Finset.univ.filter fun i => (y i).isNone = false) (by simp) f]
  refine Finset.sum_filter_of_ne fun i _ hi => ?_
  rw [isNone_false]
  exact fun hn => hi (h i hn)

theorem _root_.Cuthbert.WellConditioned.diag_pos {rtol : ℝ} {P : Matrix ι ι ℝ} (h : WellConditioned rtol P) (i : ι) :
    0 < P i i := by
  obtain ⟨-, lo, hi, hlo, -, hb⟩ := h
  have := (hb (Pi.single i 1)).1
  simp at this
  linarith

/-- `symmetric_inv_sqrt` of a matrix that is well conditioned on the observed components; NaN dimensions
are allowed only with `ignore_nan_dims`. -/
theorem symInv_obs (qr : QR) (svd : SVD) (rtol : ℝ) (hr : 0 ≤ rtol) (ign : Bool) (y : Fin ny → Option ℝ)
    (hign : ign = true ∨ ∀ i, y i ≠ none) (A : NMat ny) (P : Matrix (Obs y) (Obs y) ℝ)
    (hP : WellConditioned rtol P) (hA : ∀ i j : Obs y, A i.1 j.1 = some (P i j))
    (hm : ∀ i, y i = none → A i i = none ∨ ((∀ r, A r i = some 0) ∧ ∀ c, A i c = some 0)) :
    ∃ L : Matrix (Obs y) (Obs y) ℝ,
      (∀ i j : Obs y, symmetricInvSqrt qr svd rtol ign A i.1 j.1 = some (L i j)) ∧
      (∀ i j : Obs y, i < j → L i j = 0) ∧ P * (L * Lᵀ) = 1 ∧
      (∀ i, y i = none → symmetricInvSqrt qr svd rtol ign A i i = none) ∧
      ∀ i j, i ≠ j → y i = none ∨ y j = none → symmetricInvSqrt qr svd rtol ign A i j = some 0 := by
  classical
  obtain ⟨hsym, lo, hi, hlo, hc, hb⟩ := id hP
  obtain ⟨B, hBdef⟩ : ∃ B : Matrix (Fin ny) (Fin ny) ℝ, B = Matrix.of fun i j =>
    if h : (y i).isNone = false ∧ (y j).isNone = false then P ⟨i, h.1⟩ ⟨j, h.2⟩ else 0 := ⟨_, rfl⟩
  have hBo : ∀ i j : Obs y, B i.1 j.1 = P i j := fun i j => by
    rw [hBdef]; exact dif_pos ⟨i.2, j.2⟩
  have hBs : B.IsSymm := by
    ext i j
    simp only [hBdef, Matrix.transpose_apply, Matrix.of_apply]
    by_cases h : (y i).isNone = false ∧ (y j).isNone = false
    · rw [dif_pos h, dif_pos h.symm]; exact hsym.apply _ _
    · rw [dif_neg h, dif_neg fun h' => h h'.symm]
  have hquad : ∀ x : Fin ny → ℝ, (∀ i, y i = none → x i = 0) →
      lo * (x ⬝ᵥ x) ≤ x ⬝ᵥ B *ᵥ x ∧ x ⬝ᵥ B *ᵥ x ≤ hi * (x ⬝ᵥ x) := by
    intro x hx
    have h1 : (fun i : Obs y => x i.1) ⬝ᵥ (fun i : Obs y => x i.1) = x ⬝ᵥ x :=
      sum_obs y (fun i => x i * x i) fun i hi' => by rw [hx i hi', zero_mul]
    have h2 : (fun i : Obs y => x i.1) ⬝ᵥ P *ᵥ (fun i : Obs y => x i.1) = x ⬝ᵥ B *ᵥ x := by
      rw [dotProduct, dotProduct, ← sum_obs y _ fun i hi' => by rw [hx i hi', zero_mul]]
      refine Finset.sum_congr rfl fun i _ => ?_
      congr 1
      rw [mulVec, mulVec, dotProduct, dotProduct, ← sum_obs y _ fun i hi' => by rw [hx i hi', mul_zero]]
      exact Finset.sum_congr rfl fun j _ => by rw [hBo]
    rw [← h1, ← h2]
    exact hb _
  have hmiss : ∀ i, y i = none ↔ A i i = none ∨ ((∀ r, A r i = some 0) ∧ ∀ c, A i c = some 0) := by
    intro i
    refine ⟨hm i, fun h => ?_⟩
    by_contra hn
    have hAi := hA ⟨i, isNone_false.mpr hn⟩ ⟨i, isNone_false.mpr hn⟩
    have hpos := hP.diag_pos ⟨i, isNone_false.mpr hn⟩
    rcases h with h | h
    · rw [h] at hAi; cases hAi
    · have := h.1 i
      rw [hAi, Option.some.injEq] at this
      exact hpos.ne' this
  cases ign with
  | true =>
    obtain ⟨L, h1, h2, h3, h4, h5⟩ := symmetric_inv_sqrt_missing qr svd rtol lo hi A (fun i => y i = none)
      hmiss B hBs (fun i j hi' hj' => by
        rw [hA ⟨i, isNone_false.mpr hi'⟩ ⟨j, isNone_false.mpr hj'⟩, ← hBo]) hr hlo hc hquad
    let e : Obs y ≃ {i // ¬ y i = none} := Equiv.subtypeEquivRight fun i => isNone_false
    refine ⟨L.submatrix e e, fun i j => h1 (e i) (e j), fun i j hij => h2 _ _ hij, ?_, h4, h5⟩
    have hPe : P = (B.submatrix Subtype.val Subtype.val).submatrix e e := by
      ext i j; exact (hBo i j).symm
    rw [hPe, Matrix.transpose_submatrix, Matrix.submatrix_mul_equiv, Matrix.submatrix_mul_equiv, h3]
    exact Matrix.submatrix_one_equiv e
  | false =>
    have hall : ∀ i, y i ≠ none := hign.resolve_left (by simp)
    have hAe : A = fun i j => some (B i j) := by
      funext i j
      rw [hA ⟨i, isNone_false.mpr (hall i)⟩ ⟨j, isNone_false.mpr (hall j)⟩, ← hBo]
    obtain ⟨L, h1, h2, h3⟩ := symmetric_inv_sqrt_posdef qr svd rtol lo hi false B hBs hr hlo hc
      fun x => hquad x fun i hi' => absurd hi' (hall i)
    let e : Obs y ≃ Fin ny := ⟨Subtype.val, fun i => ⟨i, isNone_false.mpr (hall i)⟩, fun _ => rfl, fun _ => rfl⟩
    refine ⟨L.submatrix e e, fun i j => by rw [hAe]; exact h1 _ _, fun i j hij => h2 _ _ hij, ?_,
      fun i hi' => absurd hi' (hall i), fun i j _ h => h.elim (fun h => absurd h (hall i))
        fun h => absurd h (hall j)⟩
    have hPe : P = B.submatrix e e := by
      ext i j; exact (hBo i j).symm
    rw [hPe, Matrix.transpose_submatrix, Matrix.submatrix_mul_equiv, Matrix.submatrix_mul_equiv, h3]
    exact Matrix.submatrix_one_equiv e

/-- The covariance computed from such a factor. -/
theorem cov_obs (ign : Bool) (y : Fin ny → Option ℝ) (hign : ign = true ∨ ∀ i, y i ≠ none) (C : NMat ny)
    (L : Matrix (Obs y) (Obs y) ℝ) (h1 : ∀ i j : Obs y, C i.1 j.1 = some (L i j))
    (h2 : ∀ i, y i = none → C i i = none) (cov : NMat ny)
    (hcov : cov = if ign then cholCovWithNansToCov C else nanMatMul C fun i j => C j i) :
    (∀ i j : Obs y, cov i.1 j.1 = some ((L * Lᵀ) i j)) ∧
    ∀ (i : Obs y) (j : Fin ny), y j = none → cov i.1 j = some 0 := by
  classical
  obtain ⟨M, hM⟩ : ∃ M : Matrix (Fin ny) (Fin ny) ℝ, M = Matrix.of fun i j =>
    if h : (y i).isNone = false ∧ (y j).isNone = false then L ⟨i, h.1⟩ ⟨j, h.2⟩ else 0 := ⟨_, rfl⟩
  have hMo : ∀ i j : Obs y, M i.1 j.1 = L i j := fun i j => by
    rw [hM]; exact dif_pos ⟨i.2, j.2⟩
  have hnone : ∀ i, C i i = none ↔ y i = none := by
    intro i
    refine ⟨fun h => ?_, h2 i⟩
    by_contra hn
    have := h1 ⟨i, isNone_false.mpr hn⟩ ⟨i, isNone_false.mpr hn⟩
    rw [h] at this; cases this
  cases ign with
  | true =>
    obtain ⟨a1, -, a3⟩ := chol_cov_with_nans_to_cov_correct C M fun i j hi hj => by
      rw [Ne, hnone] at hi hj
      rw [h1 ⟨i, isNone_false.mpr hi⟩ ⟨j, isNone_false.mpr hj⟩, ← hMo]
    rw [if_pos rfl] at hcov
    subst hcov
    refine ⟨fun i j => ?_, fun i j hj => ?_⟩
    · rw [a1 i.1 j.1 (by rw [Ne, hnone]; exact isNone_false.mp i.2)
        (by rw [Ne, hnone]; exact isNone_false.mp j.2), Matrix.mul_apply,
        ← sum_obs y _ fun k hk => if_pos ((hnone k).mpr hk)]
      congr 1
      refine Finset.sum_congr rfl fun k _ => ?_
      rw [if_neg (by rw [hnone]; exact isNone_false.mp k.2), hMo, hMo]
      rfl
    · exact a3 i.1 j (fun h => isNone_false.mp i.2 (h ▸ hj)) (Or.inr ((hnone j).mpr hj))
  | false =>
    have hall : ∀ i, y i ≠ none := hign.resolve_left (by simp)
    have hCM : ∀ i j, C i j = some (M i j) := fun i j => by
      rw [h1 ⟨i, isNone_false.mpr (hall i)⟩ ⟨j, isNone_false.mpr (hall j)⟩, ← hMo]
    rw [if_neg (by simp)] at hcov
    subst hcov
    refine ⟨fun i j => ?_, fun i j hj => absurd hj (hall j)⟩
    rw [nanMatMul_some (B' := Mᵀ) hCM fun k j => hCM j k, Matrix.mul_apply, Matrix.mul_apply,
      ← sum_obs y _ fun k hk => absurd hk (hall k)]
    congr 1
    refine Finset.sum_congr rfl fun k _ => ?_
    rw [Matrix.transpose_apply, hMo, hMo]
    rfl

theorem nanSum_obs (y : Fin ny → Option ℝ) (f : Fin ny → Option ℝ) (g : Obs y → ℝ)
    (h1 : ∀ i : Obs y, f i.1 = some (g i)) (h2 : ∀ i, y i = none → f i = some 0) :
    nanSum f = some (∑ i, g i) := by
  have h : ∀ i, f i = some ((f i).getD 0) := by
    intro i
    by_cases hi : y i = none
    · rw [h2 i hi]; rfl
    · rw [h1 ⟨i, isNone_false.mpr hi⟩]; rfl
  rw [nanSum_some h, ← sum_obs y _ fun i hi => by rw [h2 i hi]; rfl]
  congr 1
  exact Finset.sum_congr rfl fun i _ => by rw [h1]; rfl

/-- What `linearize_log_density` returns for given derivatives. -/
theorem linearizeLogDensity_eq (qr : QR) (svd : SVD) (rtol : ℝ) (hr : 0 ≤ rtol) (ign : Bool)
    (p : CondDensity nx ny) (x : Fin nx → ℝ) (y : Fin ny → Option ℝ)
    (hign : ign = true ∨ ∀ i, y i ≠ none) (g : Obs y → ℝ) (J : Matrix (Obs y) (Fin nx) ℝ)
    (P : Matrix (Obs y) (Obs y) ℝ) (hP : WellConditioned rtol P)
    (hg : ∀ i : Obs y, p.grad (fun k => some (x k)) y i.1 = some (g i))
    (hJ : ∀ (i : Obs y) j, p.jac (fun k => some (x k)) y i.1 j = some (J i j))
    (hh : ∀ i j : Obs y, p.hess (fun k => some (x k)) y i.1 j.1 = some (-P i j))
    (hgm : ∀ i, y i = none → p.grad (fun k => some (x k)) y i ≠ none ∧
      ∀ j, p.jac (fun k => some (x k)) y i j ≠ none) :
    ∃ L : Matrix (Obs y) (Obs y) ℝ,
      (∀ i j : Obs y, i < j → L i j = 0) ∧ P * (L * Lᵀ) = 1 ∧
      (∀ (i : Obs y) j, (linearizeLogDensity qr svd rtol ign p (fun k => some (x k)) y).1 i.1 j =
        some ((L * Lᵀ * J) i j)) ∧
      (∀ i : Obs y, (linearizeLogDensity qr svd rtol ign p (fun k => some (x k)) y).2.1 i.1 =
        some ((obsY y - (L * Lᵀ * J) *ᵥ x + (L * Lᵀ) *ᵥ g) i)) ∧
      (∀ i j : Obs y, (linearizeLogDensity qr svd rtol ign p (fun k => some (x k)) y).2.2 i.1 j.1 =
        some (L i j)) ∧
      (∀ i, y i = none → (linearizeLogDensity qr svd rtol ign p (fun k => some (x k)) y).2.2 i i = none) ∧
      ∀ i j, i ≠ j → y i = none ∨ y j = none →
        (linearizeLogDensity qr svd rtol ign p (fun k => some (x k)) y).2.2 i j = some 0 := by
  obtain ⟨X, hX⟩ : ∃ X : Fin nx → Option ℝ, X = fun k => some (x k) := ⟨_, rfl⟩
  rw [← hX] at hg hJ hh hgm ⊢
  obtain ⟨A, hA⟩ : ∃ A : NMat ny, A = if ign then fun i j =>
      if i = j ∧ ((y i).isNone || ((p.hess X y i i).map fun h => -h).isNone) then none
      else (p.hess X y i j).map fun h => -h else fun i j => (p.hess X y i j).map fun h => -h := ⟨_, rfl⟩
  have hAo : ∀ i j : Obs y, A i.1 j.1 = some (P i j) := by
    intro i j
    rw [hA]
    cases ign with
    | true =>
      rw [if_pos rfl, if_neg, hh, Option.map_some, neg_neg]
      rintro ⟨-, h⟩
      rw [hh i i, i.2] at h
      simp at h
    | false => rw [if_neg (by simp), hh, Option.map_some, neg_neg]
  obtain ⟨L, l1, l2, l3, l4, l5⟩ := symInv_obs qr svd rtol hr ign y hign A P hP hAo (by
    intro i hi
    rcases hign with rfl | h
    · left; rw [hA, if_pos rfl, if_pos ⟨rfl, by simp [hi]⟩]
    · exact absurd hi (h i))
  obtain ⟨C, hC⟩ : ∃ C, C = symmetricInvSqrt qr svd rtol ign A := ⟨_, rfl⟩
  have hlin : linearizeLogDensity qr svd rtol ign p X y =
      ((linearizeGivenCholCov ign p X y C).1, (linearizeGivenCholCov ign p X y C).2, C) := by
    rw [hC, hA]; rfl
  rw [← hC] at l1 l4 l5
  obtain ⟨cov, hcov⟩ : ∃ cov, cov = if ign then cholCovWithNansToCov C else nanMatMul C fun i j => C j i :=
    ⟨_, rfl⟩
  obtain ⟨c1, c2⟩ := cov_obs ign y hign C L l1 l4 cov hcov
  have hmat : ∀ (i : Obs y) j, nanMatMul cov (p.jac X y) i.1 j = some ((L * Lᵀ * J) i j) := by
    intro i j
    rw [Matrix.mul_apply]
    refine nanSum_obs y _ _ (fun k => ?_) fun k hk => ?_
    · rw [c1, hJ]; rfl
    · obtain ⟨r, hr'⟩ := Option.ne_none_iff_exists'.mp ((hgm k hk).2 j)
      rw [c2 i k hk, hr']; simp [nanMul]
  refine ⟨L, l2, l3, ?_, ?_, ?_, ?_, ?_⟩
  · intro i j
    rw [hlin]
    simp only [linearizeGivenCholCov, ← hcov]
    exact hmat i j
  · intro i
    rw [hlin]
    simp only [linearizeGivenCholCov, ← hcov]
    have hy : y i.1 = some (obsY y i) := by
      have := isNone_false.mp i.2
      simp only [obsY]
      cases h : y i.1 with
      | none => exact absurd h this
      | some v => rfl
    have hmx : nanMatVec (nanMatMul cov (p.jac X y)) X i.1 = some (((L * Lᵀ * J) *ᵥ x) i) :=
      nanSum_some fun k => by rw [hmat, hX]; rfl
    have hcg : nanMatVec cov (p.grad X y) i.1 = some (((L * Lᵀ) *ᵥ g) i) := by
      refine nanSum_obs y _ _ (fun k => ?_) fun k hk => ?_
      · rw [c1, hg]; rfl
      · obtain ⟨r, hr'⟩ := Option.ne_none_iff_exists'.mp (hgm k hk).1
        rw [c2 i k hk, hr']; simp [nanMul]
    rw [hy, hmx, hcg]
    rfl
  · intro i j; rw [hlin]; exact l1 i j
  · intro i hi; rw [hlin]; exact l4 i hi
  · intro i j hij h; rw [hlin]; exact l5 i j hij h

end

end Cuthbert.Linearize
