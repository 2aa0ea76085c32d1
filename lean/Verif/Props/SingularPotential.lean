import Verif.Lemmas.Pseudoinverse
import Verif.Props.TaylorFilter
import Verif.Props.Calibration

/-!
# Taylor updates by potentials that do not depend on some direction of the state (C97)
-/

namespace Cuthbert.Linearize
open MeasureTheory ProbabilityTheory Matrix Cuthbert Cuthbert.Spec Kalman
open scoped ENNReal

noncomputable section

variable {nx ny n : ℕ} {Inp K : Type*}

/-! ## Noise-free functionals of a state are known after conditioning -/

section
variable {ι ο : Type*} [Fintype ι] [DecidableEq ι] [Fintype ο] [DecidableEq ο]

omit [DecidableEq ι] in
theorem condCov_noiseless (P : Matrix ι ι ℝ) (H : Matrix ο ι ℝ) (R : Matrix ο ο ℝ)
    (hd : (innovCov P H R).det ≠ 0) (w : ο → ℝ) (hw : R *ᵥ w = 0) : condCov P H R *ᵥ (Hᵀ *ᵥ w) = 0 := by
  have h1 : H *ᵥ (P *ᵥ (Hᵀ *ᵥ w)) = innovCov P H R *ᵥ w := by
    rw [innovCov, Matrix.add_mulVec, hw, add_zero, Matrix.mulVec_mulVec, Matrix.mulVec_mulVec, Matrix.mul_assoc]
  rw [condCov, Matrix.sub_mulVec, ← Matrix.mulVec_mulVec _ _ P, ← Matrix.mulVec_mulVec _ P, ← Matrix.mulVec_mulVec _ _ H,
    ← Matrix.mulVec_mulVec _ Hᵀ, h1, Matrix.mulVec_mulVec _ _ (innovCov P H R), Matrix.nonsing_inv_mul _ hd.isUnit,
    Matrix.one_mulVec, sub_self]

omit [DecidableEq ι] in
theorem condMean_noiseless (m : ι → ℝ) (P : Matrix ι ι ℝ) (hP : P.IsSymm) (H : Matrix ο ι ℝ) (d : ο → ℝ)
    (R : Matrix ο ο ℝ) (hR : R.IsSymm) (y : ο → ℝ) (hd : (innovCov P H R).det ≠ 0) (w : ο → ℝ) (hw : R *ᵥ w = 0) :
    (Hᵀ *ᵥ w) ⬝ᵥ condMean m P H d R y = w ⬝ᵥ (y - d) := by
  have hS : (innovCov P H R).IsSymm := by
    rw [Matrix.IsSymm, innovCov, Matrix.transpose_add, Matrix.transpose_mul, Matrix.transpose_mul,
      Matrix.transpose_transpose, hP, hR, Matrix.mul_assoc]
  have h1 : H *ᵥ (P *ᵥ (Hᵀ *ᵥ w)) = innovCov P H R *ᵥ w := by
    rw [innovCov, Matrix.add_mulVec, hw, add_zero, Matrix.mulVec_mulVec, Matrix.mulVec_mulVec, Matrix.mul_assoc]
  have key : ∀ r : ο → ℝ, (Hᵀ *ᵥ w) ⬝ᵥ P *ᵥ (Hᵀ *ᵥ ((innovCov P H R)⁻¹ *ᵥ r)) = w ⬝ᵥ r := fun r => by
    have e1 : (Hᵀ *ᵥ w) ⬝ᵥ P *ᵥ (Hᵀ *ᵥ ((innovCov P H R)⁻¹ *ᵥ r)) =
        (H *ᵥ (P *ᵥ (Hᵀ *ᵥ w))) ⬝ᵥ ((innovCov P H R)⁻¹ *ᵥ r) := by
      rw [Matrix.dotProduct_mulVec, ← Matrix.mulVec_transpose, hP, Matrix.dotProduct_mulVec, Matrix.vecMul_transpose]
    rw [e1, h1, dotProduct_comm, Matrix.dotProduct_mulVec, ← Matrix.mulVec_transpose, hS, Matrix.mulVec_mulVec,
      Matrix.mul_nonsing_inv _ hd.isUnit, Matrix.one_mulVec, dotProduct_comm]
  rw [condMean, dotProduct_add, key]
  have e2 : (Hᵀ *ᵥ w) ⬝ᵥ m = w ⬝ᵥ H *ᵥ m := by
    rw [Matrix.dotProduct_mulVec, ← Matrix.mulVec_transpose]
  rw [e2, dotProduct_sub, dotProduct_sub, dotProduct_add]
  ring

/-- Conditioning in information form. -/
theorem cond_information (m : ι → ℝ) (P : Matrix ι ι ℝ) (H : Matrix ο ι ℝ) (d : ο → ℝ) (R Q : Matrix ο ο ℝ) (y : ο → ℝ)
    (hP : P.det ≠ 0) (hQ : Q * R = 1) (hd : (innovCov P H R).det ≠ 0) :
    (P⁻¹ + Hᵀ * Q * H) * condCov P H R = 1 ∧
      (P⁻¹ + Hᵀ * Q * H) *ᵥ condMean m P H d R y = P⁻¹ *ᵥ m + Hᵀ *ᵥ (Q *ᵥ (y - d)) := by
  obtain ⟨S, hS⟩ : ∃ S, S = innovCov P H R := ⟨_, rfl⟩
  have hSS : S * S⁻¹ = 1 := by rw [hS]; exact Matrix.mul_nonsing_inv _ hd.isUnit
  have hPP : P⁻¹ * P = 1 := Matrix.nonsing_inv_mul _ hP.isUnit
  have hHPH : H * P * Hᵀ = S - R := by rw [hS, innovCov, add_sub_cancel_right]
  have key : (P⁻¹ + Hᵀ * Q * H) * (P * (Hᵀ * S⁻¹)) = Hᵀ * Q := by
    have e : (P⁻¹ + Hᵀ * Q * H) * (P * (Hᵀ * S⁻¹)) = P⁻¹ * P * (Hᵀ * S⁻¹) + Hᵀ * Q * (H * P * Hᵀ) * S⁻¹ := by
      simp only [Matrix.add_mul, Matrix.mul_assoc]
    rw [e, hPP, hHPH, Matrix.one_mul, Matrix.mul_sub, Matrix.sub_mul, Matrix.mul_assoc _ S, hSS, Matrix.mul_one,
      Matrix.mul_assoc Hᵀ Q R, hQ, Matrix.mul_one]
    abel
  constructor
  · have e : condCov P H R = P - P * (Hᵀ * S⁻¹) * (H * P) := by
      rw [condCov, hS]; simp only [Matrix.mul_assoc]
    rw [e, Matrix.mul_sub, ← Matrix.mul_assoc, key, Matrix.add_mul, hPP]
    simp only [Matrix.mul_assoc]
    abel
  · have e : condMean m P H d R y = m + (P * (Hᵀ * S⁻¹)) *ᵥ (y - (H *ᵥ m + d)) := by
      rw [condMean, hS]; simp only [Matrix.mulVec_mulVec]
    rw [e, Matrix.mulVec_add, Matrix.mulVec_mulVec, key, Matrix.add_mulVec]
    have e2 : y - (H *ᵥ m + d) = (y - d) - H *ᵥ m := by abel
    rw [e2, Matrix.mulVec_sub, Matrix.mulVec_mulVec _ _ H, Matrix.mulVec_mulVec _ Hᵀ]
    abel
end

/-! ## One update -/

/-- The dimensions that appear in a precision matrix. -/
def present (Λ : Matrix (Fin n) (Fin n) ℝ) : Fin n → Option ℝ :=
  open Classical in fun i => if ZeroDim Λ i then none else some 0

theorem present_none (Λ : Matrix (Fin n) (Fin n) ℝ) (i : Fin n) : present Λ i = none ↔ ZeroDim Λ i := by
  classical
  unfold present
  split_ifs with h <;> simp [h]

/-- **C99** (what `linearize_taylor` returns). Let `-Λ` be the Hessian and `G` the gradient of the log potential at
`x`, and `B` the absolute value of `Λ`. The covariance returned is the pseudo-inverse `C` of `B`. It is zero, not
infinite, in the directions in which the potential is flat, and positive in the directions in which the log potential is
convex. -/
theorem linearize_taylor_abs (qr : QR) (svd : SVD) (rtol : ℝ) (hr : 0 ≤ rtol) (ign : Bool) (p : Potential n)
    (x G : Fin n → ℝ) (Λ B : Matrix (Fin n) (Fin n) ℝ) (hΛ : Λ.IsSymm)
    (hB : SemiConditioned rtol B) (hΛB : IsAbs Λ B)
    (hg : ∀ i, p.grad (fun k => some (x k)) i = some (G i))
    (hh : ∀ i j, p.hess (fun k => some (x k)) i j = some (-Λ i j)) (hign : ign = true ∨ ∀ i, ¬ ZeroDim B i) :
    ∃ (L : Matrix (Obs (present B)) (Obs (present B)) ℝ) (C : Matrix (Fin n) (Fin n) ℝ), IsPinv B C ∧ C.IsSymm ∧
      (∀ i j : Obs (present B), (L * Lᵀ) i j = C i.1 j.1) ∧
      (∀ i, (linearizeTaylor qr svd rtol ign p fun k => some (x k)).1 i = some (x i + (C *ᵥ G) i)) ∧
      (∀ i j : Obs (present B), (linearizeTaylor qr svd rtol ign p fun k => some (x k)).2 i.1 j.1 = some (L i j)) ∧
      (∀ i, ZeroDim B i → (linearizeTaylor qr svd rtol ign p fun k => some (x k)).2 i i = none) ∧
      ∀ i j, i ≠ j → ZeroDim B i ∨ ZeroDim B j →
        (linearizeTaylor qr svd rtol ign p fun k => some (x k)).2 i j = some 0 := by
  have hign' : ign = true ∨ ∀ i, present B i ≠ none := hign.imp id fun h i hi => h i ((present_none B i).mp hi)
  obtain ⟨L, C, c1, c2, c3, -, c5, c6, c7⟩ := symmetric_inv_sqrt_abs qr svd rtol hr ign Λ B hΛ hB hΛB (present B)
    (fun i => (present_none B i).trans (hΛB.zeroDim svd hΛ hB.1 i).symm) hign'
  have hC : (fun i j => some (Λ i j)) = fun i j => (p.hess (fun k => some (x k)) i j).map fun h => -h := by
    funext i j; rw [hh, Option.map_some, neg_neg]
  rw [hC] at c3 c6 c7
  obtain ⟨a1, a2, a3, a4, a5⟩ := linearizeTaylor_of_factor qr svd rtol ign p x (present B) hign' G hg _ rfl L c3 c6 c7
  have hCz : ∀ i j, ZeroDim B i → C i j = 0 := by
    intro i j hi
    have h1 : B *ᵥ Pi.single i 1 = 0 := by
      funext r
      rw [Matrix.mulVec_single_one]
      exact hi.1 r
    have h2 := congrFun (c1.ker hB.1 c2 _ h1) j
    rw [Matrix.mulVec_single_one] at h2
    rw [← c2.apply]
    exact h2
  refine ⟨L, C, c1, c2, c5, fun i => ?_, a3, fun i hi => a4 i ((present_none B i).mpr hi), fun i j hij h => a5 i j hij
    (h.imp (present_none B i).mpr (present_none B j).mpr)⟩
  by_cases hi : present B i = none
  · rw [a2 i hi]
    have : (C *ᵥ G) i = 0 := by
      rw [Matrix.mulVec, dotProduct]
      exact Finset.sum_eq_zero fun j _ => by rw [hCz i j ((present_none B i).mp hi), zero_mul]
    rw [this, add_zero]
  · have := a1 ⟨i, isNone_false.mpr hi⟩
    rw [this]
    congr 2
    rw [Matrix.mulVec, dotProduct, Matrix.mulVec, dotProduct, ← sum_obs (present B) _ fun k hk => by
      rw [← c2.apply, hCz k _ ((present_none B k).mp hk), zero_mul]]
    exact Finset.sum_congr rfl fun k _ => by rw [c5]

/-- **C97** (what `linearize_taylor` returns). Let `-Λ` be the Hessian and `G` the gradient of the log potential at
`x`. If `Λ` is singular, the covariance returned is its pseudo-inverse `C`, which is zero, not infinite, in the
directions in which the potential is flat. -/
theorem linearize_taylor_singular (qr : QR) (svd : SVD) (rtol : ℝ) (hr : 0 ≤ rtol) (ign : Bool) (p : Potential n)
    (x G : Fin n → ℝ) (Λ : Matrix (Fin n) (Fin n) ℝ) (hΛ : SemiConditioned rtol Λ)
    (hg : ∀ i, p.grad (fun k => some (x k)) i = some (G i))
    (hh : ∀ i j, p.hess (fun k => some (x k)) i j = some (-Λ i j)) (hign : ign = true ∨ ∀ i, ¬ ZeroDim Λ i) :
    ∃ (L : Matrix (Obs (present Λ)) (Obs (present Λ)) ℝ) (C : Matrix (Fin n) (Fin n) ℝ), IsPinv Λ C ∧ C.IsSymm ∧
      (∀ i j : Obs (present Λ), (L * Lᵀ) i j = C i.1 j.1) ∧
      (∀ i, (linearizeTaylor qr svd rtol ign p fun k => some (x k)).1 i = some (x i + (C *ᵥ G) i)) ∧
      (∀ i j : Obs (present Λ), (linearizeTaylor qr svd rtol ign p fun k => some (x k)).2 i.1 j.1 = some (L i j)) ∧
      (∀ i, ZeroDim Λ i → (linearizeTaylor qr svd rtol ign p fun k => some (x k)).2 i i = none) ∧
      ∀ i j, i ≠ j → ZeroDim Λ i ∨ ZeroDim Λ j →
        (linearizeTaylor qr svd rtol ign p fun k => some (x k)).2 i j = some 0 :=
  linearize_taylor_abs qr svd rtol hr ign p x G Λ Λ hΛ.1 hΛ (hΛ.isAbs hr) hg hh hign

/-- The observation parameters made from such a potential. -/
theorem processPotential_abs (qr : QR) (svd : SVD) (rtol : ℝ) (hr : 0 ≤ rtol) (ign : Bool) (p : Potential nx)
    (x G : Fin nx → ℝ) (Λ B : Matrix (Fin nx) (Fin nx) ℝ) (hΛ : Λ.IsSymm)
    (hB : SemiConditioned rtol B) (hΛB : IsAbs Λ B)
    (hg : ∀ i, p.grad (fun k => some (x k)) i = some (G i))
    (hh : ∀ i j, p.hess (fun k => some (x k)) i j = some (-Λ i j)) (hign : ign = true ∨ ∀ i, ¬ ZeroDim B i) :
    ∃ (M C : Matrix (Fin nx) (Fin nx) ℝ), IsPinv B C ∧ C.IsSymm ∧
      processPotential qr svd rtol ign p (fun k => some (x k)) = some ⟨-1, x + C *ᵥ G, M, present B⟩ ∧
      obsL (present B) M * (obsL (present B) M)ᵀ = C.submatrix Subtype.val Subtype.val := by
  obtain ⟨L, C, c1, c2, c3, c4, c5, c6, c7⟩ := linearize_taylor_abs qr svd rtol hr ign p x G Λ B hΛ hB hΛB hg hh hign
  obtain ⟨lt, hlt⟩ : ∃ lt, lt = linearizeTaylor qr svd rtol ign p fun i => some (x i) := ⟨_, rfl⟩
  rw [← hlt] at c4 c5 c6 c7
  have hy : (fun i => if (lt.2 i i).isNone && ign then none else some 0) = present B := by
    funext i
    by_cases hi : ZeroDim B i
    · have hg' : ign = true := hign.resolve_right fun h => h i hi
      rw [c6 i hi, hg', (present_none B i).mpr hi]
      simp
    · have hi' : present B i ≠ none := fun h => hi ((present_none B i).mp h)
      rw [c5 ⟨i, isNone_false.mpr hi'⟩ ⟨i, isNone_false.mpr hi'⟩]
      simp [present, hi]
  obtain ⟨ho, a1, a2, a3⟩ := finiteObs_eq (fun i j => some ((-1 : Matrix (Fin nx) (Fin nx) ℝ) i j))
    lt.1 lt.2 (present B) (-1) (x + C *ᵥ G) L (fun _ _ => rfl) (fun i => c4 i) c5
    (fun i j hij h => c7 i j hij (h.imp (present_none B i).mp (present_none B j).mp))
  refine ⟨Matrix.of fun i j => (lt.2 i j).getD 0, C, c1, c2, ?_, a3.trans ?_⟩
  · unfold processPotential
    rw [← hlt]
    simp only []
    rw [hy, ho]
    have : (fun i => (lt.1 i).getD 0) = x + C *ᵥ G := funext fun i => by rw [c4]; rfl
    rw [this]
    rfl
  · ext i j
    exact c3 i j

/-- The predictive covariance plus pseudo-inverse noise is nonsingular. -/
theorem innov_potential {P : Matrix (Fin nx) (Fin nx) ℝ} (hP : P.PosDef) (Λ M C : Matrix (Fin nx) (Fin nx) ℝ)
    (c4 : obsL (present Λ) M * (obsL (present Λ) M)ᵀ = C.submatrix Subtype.val Subtype.val) :
    (innovCov P (obsH (present Λ) (-1 : Matrix (Fin nx) (Fin nx) ℝ)) (C.submatrix Subtype.val Subtype.val)).det ≠ 0 := by
  have hRg : IsGram (C.submatrix Subtype.val Subtype.val : Matrix (Obs (present Λ)) (Obs (present Λ)) ℝ) := by
    rw [← c4]; exact isGram_iff.mpr (posSemidef_gram _)
  obtain ⟨H, hH⟩ : ∃ H, H = obsH (present Λ) (-1 : Matrix (Fin nx) (Fin nx) ℝ) := ⟨_, rfl⟩
  rw [← hH]
  have h1 : (H * P * Hᵀ).PosDef := by
    have hHinj : Function.Injective H.vecMul := by
      intro a b hab
      funext i
      have := congrFun hab i.1
      simpa [hH, obsH, Matrix.vecMul, dotProduct, Matrix.one_apply, Matrix.neg_apply, Subtype.val_inj] using this
    have := hP.mul_mul_conjTranspose_same hHinj
    rwa [Matrix.conjTranspose_eq_transpose_of_trivial] at this
  exact (h1.add_posSemidef (isGram_iff.mp hRg)).det_pos.ne'

theorem predictive_posDef {s₁ : LState nx Inp} {k : KF nx} (hk : Holds s₁ k) {F L : Matrix (Fin nx) (Fin nx) ℝ}
    (hdet : (F * k.P * Fᵀ + L * Lᵀ).det ≠ 0) : (F * k.P * Fᵀ + L * Lᵀ).PosDef := by
  have hP : IsGram k.P := by
    obtain ⟨L, -, hL⟩ := hk.cov
    rw [← hL]; exact isGram_of _
  exact ((hP.conj F).add (isGram_of _)).posDef hdet

/-- One step of the non-associative filter with such a potential, in terms of means and covariances. -/
theorem holds_potential (qr : QR) (svd : SVD) (D : Dummies nx) (cb : TCallbacks nx ny Inp)
    (s₁ s₂ : LState nx Inp) (k : KF nx) (hk : Holds s₁ k) (F : Matrix (Fin nx) (Fin nx) ℝ) (c : Fin nx → ℝ)
    (L : Matrix (Fin nx) (Fin nx) ℝ) (hdyn : tDynamics qr svd cb s₁ s₂.modelInputs = some (F, c, L))
    (hdet : (F * k.P * Fᵀ + L * Lᵀ).det ≠ 0) (p : Potential nx) (x G : Fin nx → ℝ) (Λ : Matrix (Fin nx) (Fin nx) ℝ)
    (hobs : cb.getObservation (predictState qr D s₁ s₂.modelInputs (some (F, c, L))) s₂.modelInputs =
      .potential p fun i => some (x i)) (M C : Matrix (Fin nx) (Fin nx) ℝ)
    (c3 : processPotential qr svd cb.rtol cb.ignoreNanDims p (fun k => some (x k)) =
      some ⟨-1, x + C *ᵥ G, M, present Λ⟩)
    (c4 : obsL (present Λ) M * (obsL (present Λ) M)ᵀ = C.submatrix Subtype.val Subtype.val) :
    ∃ k' : KF nx, Holds (tCombineNonAssoc qr svd D cb s₁ s₂) k' ∧
      k'.m = condMean (F *ᵥ k.m + c) (F * k.P * Fᵀ + L * Lᵀ) (obsH (present Λ) (-1 : Matrix (Fin nx) (Fin nx) ℝ))
        (obsV (present Λ) (x + C *ᵥ G)) (C.submatrix Subtype.val Subtype.val) (obsY (present Λ)) ∧
      k'.P = condCov (F * k.P * Fᵀ + L * Lᵀ) (obsH (present Λ) (-1 : Matrix (Fin nx) (Fin nx) ℝ))
        (C.submatrix Subtype.val Subtype.val) := by
  obtain ⟨st, hst⟩ : ∃ st : Step nx nx, st = ⟨F, c, L, -1, x + C *ᵥ G, M, present Λ⟩ := ⟨_, rfl⟩
  have hS := innov_potential (predictive_posDef hk hdet) Λ M C c4
  have hstR : st.R = C.submatrix Subtype.val Subtype.val := by rw [hst]; exact c4
  refine ⟨kfStep k st, ?_, ?_, ?_⟩
  · have heq : tCombineNonAssoc qr svd D cb s₁ s₂ = updateState qr D s₁
        (predictState qr D s₁ s₂.modelInputs (some (F, c, L))) s₂.modelInputs
        (some ⟨-1, x + C *ᵥ G, M, present Λ⟩) := by
      unfold tCombineNonAssoc
      simp only [hdyn, hobs, c3]
    rw [heq]
    have := (step_holds qr D s₁ s₂.modelInputs k hk st (by
      rw [hstR]
      subst hst
      exact hS)).1
    subst hst
    exact this
  · rw [← c4]
    subst hst
    rfl
  · rw [← c4]
    subst hst
    rfl

theorem present_zero (Λ : Matrix (Fin n) (Fin n) ℝ) (i : Obs (present Λ)) : obsY (present Λ) i = 0 := by
  unfold obsY present
  split_ifs <;> rfl

theorem neg_embed (Λ : Matrix (Fin n) (Fin n) ℝ) (v : Fin n → ℝ) (hz : ∀ i, ZeroDim Λ i → v i = 0) :
    (obsH (present Λ) (-1 : Matrix (Fin n) (Fin n) ℝ))ᵀ *ᵥ (fun i : Obs (present Λ) => v i.1) = -v := by
  funext j
  rw [Matrix.mulVec, dotProduct]
  have := sum_obs (present Λ) (fun i => (-1 : Matrix (Fin n) (Fin n) ℝ) i j * v i) fun i hi => by
    rw [hz i ((present_none Λ i).mp hi), mul_zero]
  refine this.trans ?_
  simp [Matrix.one_apply]

/-- **C97** (negation, one step). After an update by a potential whose precision `Λ` is singular, the covariance is
zero along every direction `v` in its kernel made of components that the potential involves, and the mean along it is
that of the linearisation point, whatever the predictive law. The log potential is constant to second order along
`v`. -/
theorem taylor_step_singular (qr : QR) (svd : SVD) (D : Dummies nx) (cb : TCallbacks nx ny Inp) (hr : 0 ≤ cb.rtol)
    (s₁ s₂ : LState nx Inp) (k : KF nx) (hk : Holds s₁ k) (F : Matrix (Fin nx) (Fin nx) ℝ) (c : Fin nx → ℝ)
    (L : Matrix (Fin nx) (Fin nx) ℝ) (hdyn : tDynamics qr svd cb s₁ s₂.modelInputs = some (F, c, L))
    (hdet : (F * k.P * Fᵀ + L * Lᵀ).det ≠ 0) (p : Potential nx) (x G : Fin nx → ℝ) (Λ : Matrix (Fin nx) (Fin nx) ℝ)
    (hobs : cb.getObservation (predictState qr D s₁ s₂.modelInputs (some (F, c, L))) s₂.modelInputs =
      .potential p fun i => some (x i))
    (hΛ : SemiConditioned cb.rtol Λ) (hg : ∀ i, p.grad (fun k => some (x k)) i = some (G i))
    (hh : ∀ i j, p.hess (fun k => some (x k)) i j = some (-Λ i j))
    (hign : cb.ignoreNanDims = true ∨ ∀ i, ¬ ZeroDim Λ i) :
    ∃ k' : KF nx, Holds (tCombineNonAssoc qr svd D cb s₁ s₂) k' ∧
      ∀ v : Fin nx → ℝ, Λ *ᵥ v = 0 → (∀ i, ZeroDim Λ i → v i = 0) → k'.P *ᵥ v = 0 ∧ v ⬝ᵥ k'.m = v ⬝ᵥ x := by
  obtain ⟨M, C, c1, c2, c3, c4⟩ := processPotential_abs qr svd cb.rtol hr cb.ignoreNanDims p x G Λ Λ hΛ.1 hΛ
    (hΛ.isAbs hr) hg hh hign
  obtain ⟨k', hk', e2, e1⟩ := holds_potential qr svd D cb s₁ s₂ k hk F c L hdyn hdet p x G Λ hobs M C c3 c4
  have hPd := predictive_posDef hk hdet
  have hS := innov_potential hPd Λ M C c4
  have hPs : (F * k.P * Fᵀ + L * Lᵀ).IsSymm := by
    have := hPd.isHermitian
    rwa [Matrix.IsHermitian, Matrix.conjTranspose_eq_transpose_of_trivial] at this
  refine ⟨k', hk', fun v hv hz => ?_⟩
  have hCv : C *ᵥ v = 0 := c1.ker hΛ.1 c2 v hv
  have hw : (C.submatrix Subtype.val Subtype.val : Matrix (Obs (present Λ)) (Obs (present Λ)) ℝ) *ᵥ
      (fun i => v i.1) = 0 := by
    funext i
    have := congrFun hCv i.1
    rw [Matrix.mulVec, dotProduct] at this ⊢
    rw [← sum_obs (present Λ) _ fun k hk => by rw [hz k ((present_none Λ k).mp hk), mul_zero]] at this
    exact this
  have hHT := neg_embed Λ v hz
  have k1 := condCov_noiseless _ _ _ hS _ hw
  have k2 := condMean_noiseless (F *ᵥ k.m + c) _ hPs _ (obsV (present Λ) (x + C *ᵥ G)) _
    (c2.submatrix _) (obsY (present Λ)) hS _ hw
  rw [← e1, hHT, Matrix.mulVec_neg, neg_eq_zero] at k1
  rw [← e2, hHT, neg_dotProduct] at k2
  refine ⟨k1, ?_⟩
  have k3 : (fun i : Obs (present Λ) => v i.1) ⬝ᵥ (obsY (present Λ) - obsV (present Λ) (x + C *ᵥ G)) =
      -(v ⬝ᵥ (x + C *ᵥ G)) := by
    rw [dotProduct, dotProduct, ← Finset.sum_neg_distrib,
      ← sum_obs (present Λ) (fun i => -(v i * (x + C *ᵥ G) i)) fun i hi => by
        rw [hz i ((present_none Λ i).mp hi), zero_mul, neg_zero]]
    refine Finset.sum_congr rfl fun i _ => ?_
    rw [Pi.sub_apply, present_zero]
    simp only [obsV]
    ring
  rw [k3] at k2
  rw [neg_inj.mp k2, dotProduct_add, Matrix.dotProduct_mulVec, ← Matrix.mulVec_transpose, c2, hCv, zero_dotProduct,
    add_zero]

/-- **C99** (what an update does). Let `-Λ` be the Hessian and `G` the gradient of the log potential at `x`, `B` the
absolute value of `Λ`, nonsingular on the components that appear in the Hessian, and `G'` the gradient with the other
components set to zero. With `P` and `m` the predictive moments, `P'⁻¹ = P⁻¹ + B` and `P'⁻¹ m' = P⁻¹ m + B x + G'`. -/
theorem taylor_update_abs (qr : QR) (svd : SVD) (D : Dummies nx) (cb : TCallbacks nx ny Inp)
    (hr : 0 ≤ cb.rtol)
    (s₁ s₂ : LState nx Inp) (k : KF nx) (hk : Holds s₁ k) (F : Matrix (Fin nx) (Fin nx) ℝ) (c : Fin nx → ℝ)
    (L : Matrix (Fin nx) (Fin nx) ℝ) (hdyn : tDynamics qr svd cb s₁ s₂.modelInputs = some (F, c, L))
    (hdet : (F * k.P * Fᵀ + L * Lᵀ).det ≠ 0) (p : Potential nx) (x G G' : Fin nx → ℝ) (Λ B : Matrix (Fin nx) (Fin nx) ℝ)
    (hobs : cb.getObservation (predictState qr D s₁ s₂.modelInputs (some (F, c, L))) s₂.modelInputs =
      .potential p fun i => some (x i))
    (hΛ : Λ.IsSymm) (hB : SemiConditioned cb.rtol B) (hΛB : IsAbs Λ B) (hg : ∀ i, p.grad (fun k => some (x k)) i = some (G i))
    (hh : ∀ i j, p.hess (fun k => some (x k)) i j = some (-Λ i j))
    (hign : cb.ignoreNanDims = true ∨ ∀ i, ¬ ZeroDim B i) (hG0 : ∀ i, ZeroDim B i → G' i = 0)
    (hG1 : ∀ i, ¬ ZeroDim B i → G' i = G i)
    (hdetB : ∀ v : Fin nx → ℝ, B *ᵥ v = 0 → ∀ i, v i ≠ 0 → ZeroDim B i) :
    ∃ (m' : Fin nx → ℝ) (L' : Matrix (Fin nx) (Fin nx) ℝ), (tCombineNonAssoc qr svd D cb s₁ s₂).mean = some m' ∧
      (tCombineNonAssoc qr svd D cb s₁ s₂).cholCov = some L' ∧
      ((F * k.P * Fᵀ + L * Lᵀ)⁻¹ + B) * (L' * L'ᵀ) = 1 ∧
      ((F * k.P * Fᵀ + L * Lᵀ)⁻¹ + B) *ᵥ m' = (F * k.P * Fᵀ + L * Lᵀ)⁻¹ *ᵥ (F *ᵥ k.m + c) + B *ᵥ x + G' := by
  obtain ⟨M, C, c1, c2, c3, c4⟩ := processPotential_abs qr svd cb.rtol hr cb.ignoreNanDims p x G Λ B hΛ hB hΛB hg hh hign
  obtain ⟨k', hk', hm', hP'⟩ := holds_potential qr svd D cb s₁ s₂ k hk F c L hdyn hdet p x G B hobs M C c3 c4
  have hPd := predictive_posDef hk hdet
  have hS := innov_potential hPd B M C c4
  obtain ⟨H, hH⟩ : ∃ H, H = obsH (present B) (-1 : Matrix (Fin nx) (Fin nx) ℝ) := ⟨_, rfl⟩
  obtain ⟨R, hR⟩ : ∃ R : Matrix (Obs (present B)) (Obs (present B)) ℝ, R = C.submatrix Subtype.val Subtype.val :=
    ⟨_, rfl⟩
  obtain ⟨Q, hQ⟩ : ∃ Q : Matrix (Obs (present B)) (Obs (present B)) ℝ, Q = B.submatrix Subtype.val Subtype.val :=
    ⟨_, rfl⟩
  rw [← hH, ← hR] at hm' hP' hS
  -- restriction to the components involved
  have hQv : ∀ z : Fin nx → ℝ, Q *ᵥ (fun i => z i.1) = fun i => (B *ᵥ z) i.1 := fun z => by
    funext i
    rw [Matrix.mulVec, dotProduct, Matrix.mulVec, dotProduct, hQ]
    exact sum_obs (present B) (fun j => B i.1 j * z j) fun j hj => by
      rw [((present_none B j).mp hj).1 i.1, zero_mul]
  have hRv : ∀ z : Fin nx → ℝ, (∀ i, ZeroDim B i → z i = 0) → R *ᵥ (fun i => z i.1) = fun i => (C *ᵥ z) i.1 :=
    fun z hz => by
      funext i
      rw [Matrix.mulVec, dotProduct, Matrix.mulVec, dotProduct, hR]
      exact sum_obs (present B) (fun j => C i.1 j * z j) fun j hj => by rw [hz j ((present_none B j).mp hj), mul_zero]
  have hBz : ∀ z : Fin nx → ℝ, ∀ i, ZeroDim B i → (B *ᵥ z) i = 0 := fun z i hi => by
    rw [Matrix.mulVec, dotProduct]
    exact Finset.sum_eq_zero fun j _ => by rw [hi.2, zero_mul]
  have hCG : C *ᵥ G = C *ᵥ G' := by
    funext i
    rw [Matrix.mulVec, dotProduct, Matrix.mulVec, dotProduct]
    refine Finset.sum_congr rfl fun j _ => ?_
    by_cases hj : ZeroDim B j
    · have h1 : B *ᵥ Pi.single j 1 = 0 := by
        funext r
        rw [Matrix.mulVec_single_one]
        exact hj.1 r
      have h2 := congrFun (c1.ker hB.1 c2 _ h1) i
      rw [Matrix.mulVec_single_one] at h2
      have h3 : C i j = 0 := h2
      rw [h3, zero_mul, zero_mul]
    · rw [hG1 j hj]
  have hinj : Function.Injective Q.mulVec := by
    rw [← Matrix.coe_mulVecLin, ← LinearMap.ker_eq_bot, LinearMap.ker_eq_bot']
    intro u hu
    rw [Matrix.mulVecLin_apply] at hu
    classical
    obtain ⟨v, hv⟩ : ∃ v : Fin nx → ℝ, v = fun i => if h : (present B i).isNone = false then u ⟨i, h⟩ else 0 := ⟨_, rfl⟩
    have huv : u = fun i : Obs (present B) => v i.1 := by
      funext i
      rw [hv]
      simp only []
      rw [dif_pos i.2]
    have hBv : B *ᵥ v = 0 := by
      funext i
      by_cases hi : ZeroDim B i
      · exact hBz v i hi
      · have h1 : present B i ≠ none := fun h => hi ((present_none B i).mp h)
        have := congrFun (hQv v) ⟨i, isNone_false.mpr h1⟩
        rw [← huv, hu] at this
        exact this.symm
    funext i
    by_contra h
    have h2 := hdetB v hBv i.1 (by rw [huv] at h; exact h)
    exact isNone_false.mp i.2 ((present_none B i.1).mpr h2)
  have hQRQ : ∀ u, Q *ᵥ (R *ᵥ (Q *ᵥ u)) = Q *ᵥ u := by
    intro u
    classical
    obtain ⟨v, hv⟩ : ∃ v : Fin nx → ℝ, v = fun i => if h : (present B i).isNone = false then u ⟨i, h⟩ else 0 := ⟨_, rfl⟩
    have huv : u = fun i : Obs (present B) => v i.1 := by
      funext i
      rw [hv]
      simp only []
      rw [dif_pos i.2]
    rw [huv, hQv, hRv _ (hBz v), hQv]
    have := c1.aca
    rw [Matrix.mulVec_mulVec, Matrix.mulVec_mulVec, this]
  have hRQ : R * Q = 1 := by
    refine Matrix.mulVec_injective ?_
    funext u
    rw [← Matrix.mulVec_mulVec, Matrix.one_mulVec]
    exact hinj (hQRQ u)
  have hQR : Q * R = 1 := mul_eq_one_comm.mp hRQ
  obtain ⟨i1, i2⟩ := cond_information (F *ᵥ k.m + c) (F * k.P * Fᵀ + L * Lᵀ) H (obsV (present B) (x + C *ᵥ G)) R Q
    (obsY (present B)) hdet hQR hS
  have hHv : ∀ z : Fin nx → ℝ, H *ᵥ z = -fun i : Obs (present B) => z i.1 := fun z => by
    funext i
    rw [hH, obsH, Matrix.mulVec, dotProduct]
    simp [Matrix.one_apply]
  have hHQH : Hᵀ * Q * H = B := by
    refine Matrix.mulVec_injective ?_
    funext z
    rw [← Matrix.mulVec_mulVec, ← Matrix.mulVec_mulVec, hHv, Matrix.mulVec_neg, hQv, Matrix.mulVec_neg, hH,
      neg_embed B _ (hBz z), neg_neg]
  have hlast : Hᵀ *ᵥ (Q *ᵥ (obsY (present B) - obsV (present B) (x + C *ᵥ G))) = B *ᵥ x + G' := by
    have e : obsY (present B) - obsV (present B) (x + C *ᵥ G) =
        -((fun i : Obs (present B) => x i.1) + R *ᵥ fun i => G' i.1) := by
      rw [hRv G' hG0, ← hCG]
      funext i
      rw [Pi.sub_apply, present_zero]
      simp [obsV]
    rw [e, Matrix.mulVec_neg, Matrix.mulVec_add, Matrix.mulVec_mulVec _ Q R, hQR, Matrix.one_mulVec, hQv,
      Matrix.mulVec_neg, Matrix.mulVec_add, hH, neg_embed B _ (hBz x), neg_embed B _ hG0]
    abel
  obtain ⟨L', hL', hLP⟩ := hk'.cov
  refine ⟨k'.m, L', hk'.mean, hL', ?_, ?_⟩
  · rw [hLP, hP', ← i1, hHQH]
  · rw [hHQH, ← hm', hlast] at i2
    rw [i2, add_assoc]

/-- **C97** (where the update is right; the full claim has no hypothesis `hdetΛ`). If the precision is nonsingular on
the components that the potential involves, then the update adds the information of the second-order expansion
of the log potential at `x`: with `P` and `m` the predictive moments, `P'⁻¹ = P⁻¹ + Λ` and
`P'⁻¹ m' = P⁻¹ m + Λ x + G`. -/
theorem taylor_update_information_partial (qr : QR) (svd : SVD) (D : Dummies nx) (cb : TCallbacks nx ny Inp)
    (hr : 0 ≤ cb.rtol)
    (s₁ s₂ : LState nx Inp) (k : KF nx) (hk : Holds s₁ k) (F : Matrix (Fin nx) (Fin nx) ℝ) (c : Fin nx → ℝ)
    (L : Matrix (Fin nx) (Fin nx) ℝ) (hdyn : tDynamics qr svd cb s₁ s₂.modelInputs = some (F, c, L))
    (hdet : (F * k.P * Fᵀ + L * Lᵀ).det ≠ 0) (p : Potential nx) (x G : Fin nx → ℝ) (Λ : Matrix (Fin nx) (Fin nx) ℝ)
    (hobs : cb.getObservation (predictState qr D s₁ s₂.modelInputs (some (F, c, L))) s₂.modelInputs =
      .potential p fun i => some (x i))
    (hΛ : SemiConditioned cb.rtol Λ) (hg : ∀ i, p.grad (fun k => some (x k)) i = some (G i))
    (hh : ∀ i j, p.hess (fun k => some (x k)) i j = some (-Λ i j))
    (hign : cb.ignoreNanDims = true ∨ ∀ i, ¬ ZeroDim Λ i) (hG : ∀ i, ZeroDim Λ i → G i = 0)
    (hdetΛ : ∀ v : Fin nx → ℝ, Λ *ᵥ v = 0 → ∀ i, v i ≠ 0 → ZeroDim Λ i) :
    ∃ (m' : Fin nx → ℝ) (L' : Matrix (Fin nx) (Fin nx) ℝ), (tCombineNonAssoc qr svd D cb s₁ s₂).mean = some m' ∧
      (tCombineNonAssoc qr svd D cb s₁ s₂).cholCov = some L' ∧
      ((F * k.P * Fᵀ + L * Lᵀ)⁻¹ + Λ) * (L' * L'ᵀ) = 1 ∧
      ((F * k.P * Fᵀ + L * Lᵀ)⁻¹ + Λ) *ᵥ m' = (F * k.P * Fᵀ + L * Lᵀ)⁻¹ *ᵥ (F *ᵥ k.m + c) + Λ *ᵥ x + G :=
  taylor_update_abs qr svd D cb hr s₁ s₂ k hk F c L hdyn hdet p x G G Λ Λ hobs hΛ.1 hΛ (hΛ.isAbs hr) hg hh hign hG
    (fun _ _ => rfl) hdetΛ

/-! ## Potentials of one linear functional of the state -/

/-- A log potential that depends on the state through `w ⬝ᵥ x`, and is strictly concave in it: a comparison of two
players with skills `x i` and `x j`, say, for `w = e i - e j`. -/
structure IsRidge (p : Potential n) (φ : ℝ → ℝ) (w : Fin n → ℝ) : Prop where
  ad : p.AD
  smooth : ContDiff ℝ 2 φ
  concave : ∀ a, deriv (deriv φ) a < 0
  value : ∀ x, p.value x = φ (w ⬝ᵥ x)
  nonzero : w ≠ 0

theorem lineDeriv_ridge {ψ : ℝ → ℝ} (hψ : Differentiable ℝ ψ) (w x v : Fin n → ℝ) (a : ℝ) :
    lineDeriv ℝ (fun z => ψ (w ⬝ᵥ z) * a) x v = deriv ψ (w ⬝ᵥ x) * (w ⬝ᵥ v) * a := by
  have h1 : HasDerivAt (fun t : ℝ => w ⬝ᵥ (x + t • v)) (w ⬝ᵥ v) 0 := by
    have : (fun t : ℝ => w ⬝ᵥ (x + t • v)) = fun t => w ⬝ᵥ x + t * (w ⬝ᵥ v) := by
      funext t; rw [dotProduct_add, dotProduct_smul, smul_eq_mul]
    rw [this]
    simpa using ((hasDerivAt_id (0 : ℝ)).mul_const (w ⬝ᵥ v)).const_add (w ⬝ᵥ x)
  have h2 : HasDerivAt ψ (deriv ψ (w ⬝ᵥ x)) (w ⬝ᵥ (x + (0 : ℝ) • v)) := by
    rw [zero_smul, add_zero]; exact (hψ _).hasDerivAt
  exact ((h2.comp (0 : ℝ) h1).mul_const a).deriv

theorem IsRidge.contDiff {p : Potential n} {φ : ℝ → ℝ} {w : Fin n → ℝ} (h : IsRidge p φ w) : ContDiff ℝ 2 p.value := by
  have : p.value = fun x => φ (w ⬝ᵥ x) := funext h.value
  rw [this]
  refine h.smooth.comp ?_
  unfold dotProduct
  fun_prop

theorem IsRidge.grad {p : Potential n} {φ : ℝ → ℝ} {w : Fin n → ℝ} (h : IsRidge p φ w) (x : Fin n → ℝ) (i : Fin n) :
    p.grad (fun k => some (x k)) i = some (deriv φ (w ⬝ᵥ x) * w i) := by
  rw [h.ad.grad x h.contDiff]
  have : p.value = fun x => φ (w ⬝ᵥ x) * 1 := funext fun x => by rw [h.value, mul_one]
  rw [this, lineDeriv_ridge (h.smooth.differentiable (by norm_num)), dotProduct_single_one, mul_one]

theorem IsRidge.hess {p : Potential n} {φ : ℝ → ℝ} {w : Fin n → ℝ} (h : IsRidge p φ w) (x : Fin n → ℝ) (i j : Fin n) :
    p.hess (fun k => some (x k)) i j = some (deriv (deriv φ) (w ⬝ᵥ x) * (w i * w j)) := by
  rw [h.ad.hess x h.contDiff]
  have e1 : p.value = fun x => φ (w ⬝ᵥ x) * 1 := funext fun x => by rw [h.value, mul_one]
  have e2 : (fun z => lineDeriv ℝ p.value z (Pi.single i 1)) = fun z => deriv φ (w ⬝ᵥ z) * w i := by
    funext z
    rw [e1, lineDeriv_ridge (h.smooth.differentiable (by norm_num)), dotProduct_single_one, mul_one]
  rw [e2, lineDeriv_ridge h.smooth.differentiable_deriv_two, dotProduct_single_one, mul_assoc, mul_comm (w j)]

theorem dotProduct_self_pos {w : Fin n → ℝ} (hw : w ≠ 0) : 0 < w ⬝ᵥ w := by
  refine lt_of_le_of_ne (Finset.sum_nonneg fun i _ => mul_self_nonneg _) fun h => hw ?_
  exact dotProduct_self_eq_zero.mp h.symm

theorem rankOne_mulVec (a : ℝ) (w v : Fin n → ℝ) : (Matrix.of fun i j => a * (w i * w j)) *ᵥ v = (a * (w ⬝ᵥ v)) • w := by
  funext i
  rw [Matrix.mulVec, dotProduct, Pi.smul_apply, smul_eq_mul, dotProduct, Finset.mul_sum, Finset.sum_mul]
  exact Finset.sum_congr rfl fun j _ => by rw [Matrix.of_apply]; ring

theorem rankOne_semiConditioned {rtol : ℝ} (hr : rtol < 1) {a : ℝ} (ha : 0 < a) {w : Fin n → ℝ} (hw : w ≠ 0) :
    SemiConditioned rtol (Matrix.of fun i j => a * (w i * w j)) := by
  have hpos : 0 < a * (w ⬝ᵥ w) := mul_pos ha (dotProduct_self_pos hw)
  refine ⟨?_, a * (w ⬝ᵥ w), hpos, fun v μ hv h => ?_⟩
  · ext i j
    rw [Matrix.transpose_apply, Matrix.of_apply, Matrix.of_apply]; ring
  · rw [rankOne_mulVec] at h
    by_cases hμ : μ = 0
    · exact Or.inl hμ
    · have h1 : (a * (w ⬝ᵥ v)) * (w ⬝ᵥ w) = μ * (w ⬝ᵥ v) := by
        have := congrArg (fun z => w ⬝ᵥ z) h
        simpa only [dotProduct_smul, smul_eq_mul] using this
      have h2 : w ⬝ᵥ v ≠ 0 := fun h0 => by
        rw [h0, mul_zero, zero_smul] at h
        exact (smul_ne_zero hμ hv) h.symm
      have h3 : μ = a * (w ⬝ᵥ w) := mul_right_cancel₀ h2 (by rw [← h1]; ring)
      rw [h3]
      exact Or.inr ⟨by nlinarith, le_rfl⟩

theorem rankOne_zeroDim {a : ℝ} (ha : 0 < a) {w : Fin n → ℝ} (i : Fin n) :
    ZeroDim (Matrix.of fun i j => a * (w i * w j)) i ↔ w i = 0 := by
  constructor
  · intro h
    have := h.1 i
    rw [Matrix.of_apply] at this
    exact mul_self_eq_zero.mp ((mul_eq_zero.mp this).resolve_left ha.ne')
  · intro h
    exact ⟨fun r => by rw [Matrix.of_apply, h]; ring, fun r => by rw [Matrix.of_apply, h]; ring⟩

/-! ## Runs -/

theorem fk_positive {E : Type*} [MeasurableSpace E] : ∀ ss : List (FKStep E), (∀ s ∈ ss, Measurable s.kernel ∧
    (∀ x, IsProbabilityMeasure (s.kernel x)) ∧ ∃ g : E → ℝ≥0∞, Measurable g ∧ (∀ x, g x ≠ 0) ∧ s.pot = fun _ => g) →
    (Measurable (fkPathExp ss fun _ => 1)) ∧ ∀ x, fkPathExp ss (fun _ => 1) x ≠ 0
  | [], _ => ⟨measurable_const, fun _ => one_ne_zero⟩
  | s :: ss, h => by
    obtain ⟨ih1, ih2⟩ := fk_positive ss fun s hs => h s (List.mem_cons_of_mem _ hs)
    obtain ⟨h1, h2, g, h3, h4, h5⟩ := h s List.mem_cons_self
    have hm : Measurable fun x' => g x' * fkPathExp ss (fun _ => 1) x' := h3.mul ih1
    have he : fkPathExp (s :: ss) (fun _ => 1) = fun x => ∫⁻ x', g x' * fkPathExp ss (fun _ => 1) x' ∂s.kernel x := by
      funext x
      rw [fkPathExp, h5]
    rw [he]
    refine ⟨(Measure.measurable_lintegral hm).comp h1, fun x h0 => ?_⟩
    rw [lintegral_eq_zero_iff hm] at h0
    have := h2 x
    obtain ⟨x', hx'⟩ := h0.exists
    exact mul_ne_zero (h4 x') (ih2 x') hx'

/-- The model that the callbacks stand for: Gaussian initial law, Gaussian transitions, and at each input a potential
that is a strictly concave function of one linear functional of the state. The linearisation points may depend on
the states. -/
structure RidgeModel (cb : TCallbacks nx ny Inp) (u₀ : Inp) (us : List Inp) (m0 : Fin nx → ℝ)
    (L0 : Matrix (Fin nx) (Fin nx) ℝ) (F : Inp → Matrix (Fin nx) (Fin nx) ℝ) (c : Inp → Fin nx → ℝ)
    (L : Inp → Matrix (Fin nx) (Fin nx) ℝ) (φ : Inp → ℝ → ℝ) (w : Inp → Fin nx → ℝ) : Prop where
  init : ∃ (p : Potential nx) (x : Fin nx → ℝ), cb.getInit u₀ = (p, fun i => some (x i)) ∧
    IsGaussian cb.rtol p m0 (L0 * L0ᵀ)
  dynamics : ∀ u ∈ us, ∀ s : LState nx Inp, s.Finite → ∃ (p : CondDensity nx nx) (xPrev xCurr : Fin nx → ℝ),
    cb.getDynamics s u = (p, fun i => some (xPrev i), fun i => some (xCurr i)) ∧
      IsGaussianTransition cb.rtol p (F u) (c u) (L u * (L u)ᵀ)
  observation : ∀ u ∈ us, ∀ s : LState nx Inp, s.Finite → ∃ (p : Potential nx) (x : Fin nx → ℝ),
    cb.getObservation s u = .potential p (fun i => some (x i)) ∧ IsRidge p (φ u) (w u)

/-- Its steps. -/
def ridgeStep (F : Matrix (Fin nx) (Fin nx) ℝ) (c : Fin nx → ℝ) (L : Matrix (Fin nx) (Fin nx) ℝ) (φ : ℝ → ℝ)
    (w : Fin nx → ℝ) : FKStep (Fin nx → ℝ) where
  kernel x := gauss (F *ᵥ x + c) L
  pot _ x' := ENNReal.ofReal (Real.exp (φ (w ⬝ᵥ x')))


theorem gauss_hyperplane_eq (m : Fin n → ℝ) (L : Matrix (Fin n) (Fin n) ℝ) (v : Fin n → ℝ) (h : (L * Lᵀ) *ᵥ v = 0) :
    gauss m L {z | v ⬝ᵥ z = v ⬝ᵥ m} = 1 := by
  have hm : Measurable fun z : Fin n → ℝ => v ⬝ᵥ z := by unfold dotProduct; fun_prop
  have h1 : {z | v ⬝ᵥ z = v ⬝ᵥ m} = (fun z : Fin n → ℝ => v ⬝ᵥ z) ⁻¹' {v ⬝ᵥ m} := rfl
  rw [h1, ← Measure.map_apply hm (measurableSet_singleton _), Generate.gauss_functional, h, dotProduct_zero,
    Real.toNNReal_zero, gaussianReal_zero_var, Measure.dirac_apply_of_mem (Set.mem_singleton _)]

theorem gauss_hyperplane_null (m : Fin n → ℝ) (L : Matrix (Fin n) (Fin n) ℝ) (hd : (L * Lᵀ).det ≠ 0) (v : Fin n → ℝ)
    (hv : v ≠ 0) (a : ℝ) : gauss m L {z | v ⬝ᵥ z = a} = 0 := by
  have hm : Measurable fun z : Fin n → ℝ => v ⬝ᵥ z := by unfold dotProduct; fun_prop
  have h1 : {z | v ⬝ᵥ z = a} = (fun z : Fin n → ℝ => v ⬝ᵥ z) ⁻¹' {a} := rfl
  have hp := (isGram_of L).posDef hd
  have hpos : 0 < v ⬝ᵥ (L * Lᵀ) *ᵥ v := by
    have := hp.dotProduct_mulVec_pos hv
    simpa using this
  rw [h1, ← Measure.map_apply hm (measurableSet_singleton _), Generate.gauss_functional]
  have := nullSingletonClass_gaussianReal (μ := v ⬝ᵥ m) (v := (v ⬝ᵥ (L * Lᵀ) *ᵥ v).toNNReal)
    (by rw [Ne, Real.toNNReal_eq_zero, not_le]; exact hpos)
  exact measure_singleton _

/-- **C97** (negation, runs). After every update by such a potential, the sequential non-associative Taylor filter
claims to know exactly every linear functional `v` of the components involved that is orthogonal to `w`: its law
gives probability one to one value of `v ⬝ᵥ x`. Every single value has probability zero under the exact filtering
law, whose normalising constant is positive. -/
theorem taylor_ridge_overconfident (qr : QR) (svd : SVD) (D : Dummies nx) (cb : TCallbacks nx ny Inp)
    (hr : 0 ≤ cb.rtol) (hr1 : cb.rtol < 1) (rng : Prng K) (u₀ : Inp) (us : List Inp) (key : Option K)
    (m0 : Fin nx → ℝ) (L0 : Matrix (Fin nx) (Fin nx) ℝ) (F : Inp → Matrix (Fin nx) (Fin nx) ℝ)
    (c : Inp → Fin nx → ℝ) (L : Inp → Matrix (Fin nx) (Fin nx) ℝ) (φ : Inp → ℝ → ℝ) (w : Inp → Fin nx → ℝ)
    (hM : RidgeModel cb u₀ us m0 L0 F c L φ w)
    (hign : cb.ignoreNanDims = true ∨ ∀ u ∈ us, ∀ i, w u i ≠ 0) :
    ∃ states, (filter rng (buildTaylorFilter qr svd D cb false) (u₀ :: us) false key).result = .ok states ∧
      states.length = us.length + 1 ∧
      ∀ t u, us[t]? = some u → ∃ s m L', states[t + 1]? = some s ∧ s.mean = some m ∧ s.cholCov = some L' ∧
        s.logNormalizingConstant ≠ none ∧
        fkExp (gauss m0 L0) ((us.take (t + 1)).map fun u => ridgeStep (F u) (c u) (L u) (φ u) (w u)) (fun _ => 1) ≠ 0 ∧
        ∀ v : Fin nx → ℝ, v ≠ 0 → w u ⬝ᵥ v = 0 → (∀ i, w u i = 0 → v i = 0) →
          gauss m L' {z | v ⬝ᵥ z = v ⬝ᵥ m} = 1 ∧
          ∀ a : ℝ, fkExp (gauss m0 L0) ((us.take (t + 1)).map fun u => ridgeStep (F u) (c u) (L u) (φ u) (w u))
            (fun p => ({z | v ⬝ᵥ z = a} : Set (Fin nx → ℝ)).indicator 1 (p (t + 1))) = 0 := by
  obtain ⟨states, hst, hrun⟩ := filter_sequential_is_online_run rng
    (buildTaylorFilter (K := K) qr svd D cb false) (u₀ :: us) key (by simp)
  have hdynIs : ∀ u ∈ us, ∀ s : LState nx Inp, s.Finite → ∃ F' c' L', tDynamics qr svd cb s u = some (F', c', L') ∧
      (L' * L'ᵀ).det ≠ 0 := by
    intro u hu s hs
    obtain ⟨p, xP, xC, h1, h2⟩ := hM.dynamics u hu s hs
    by_cases hn : nx = 0
    · subst hn
      unfold tDynamics
      rw [h1]
      simp only []
      rw [if_pos ⟨fun i => i.elim0, fun i => i.elim0⟩]
      exact ⟨1, 0, 0, rfl, by rw [Matrix.det_isEmpty]; exact one_ne_zero⟩
    · obtain ⟨L', -, hL', hlin⟩ := h2.linearize qr svd hr cb.ignoreNanDims xP xC
      have hns : ¬ skipPredict (fun i => some (xC i)) fun i => some (xP i) := fun hs => by
        have := hs.1 ⟨0, Nat.pos_of_ne_zero hn⟩
        cases this
      refine ⟨F u, c u, L', ?_, by rw [hL']; exact h2.cond.det_ne_zero⟩
      unfold tDynamics
      rw [h1]
      simp only []
      rw [hlin, if_neg hns, finite_some _ (F u) fun _ _ => rfl, finiteVec_some _ (c u) fun _ => rfl,
        finite_some _ L' fun _ _ => rfl]
      rfl
  have hstep : ∀ u ∈ us, ∀ (s : LState nx Inp) (k : KF nx), Holds s k → ∃ k' : KF nx,
      Holds (tCombineNonAssoc qr svd D cb s (prepareNonAssoc D u)) k' ∧
      ∀ v : Fin nx → ℝ, w u ⬝ᵥ v = 0 → (∀ i, w u i = 0 → v i = 0) → k'.P *ᵥ v = 0 := by
    intro u hu s k hk
    obtain ⟨F', c', L', h1, h2⟩ := hdynIs u hu s hk.finite
    obtain ⟨p, x, h3, h4⟩ := hM.observation u hu _ (predictState_finite qr D s hk.finite u (F', c', L'))
    have hP : IsGram k.P := by
      obtain ⟨L, -, hL⟩ := hk.cov
      rw [← hL]; exact isGram_of _
    obtain ⟨a, ha⟩ : ∃ a, a = -deriv (deriv (φ u)) (w u ⬝ᵥ x) := ⟨_, rfl⟩
    have hapos : 0 < a := by rw [ha]; exact neg_pos.mpr (h4.concave _)
    obtain ⟨k', h5, h6⟩ := taylor_step_singular qr svd D cb hr s (prepareNonAssoc D u) k hk F' c' L' h1
      (by
        rw [add_comm]
        exact (isGram_of L').det_add_ne_zero h2 (hP.conj F')) p x _ (Matrix.of fun i j => a * (w u i * w u j)) h3
      (rankOne_semiConditioned hr1 hapos h4.nonzero) (h4.grad x)
      (fun i j => by rw [h4.hess x, Matrix.of_apply, ha]; congr 1; ring)
      (hign.imp id fun h i hi => h u hu i ((rankOne_zeroDim hapos i).mp hi))
    refine ⟨k', h5, fun v hv hz => (h6 v ?_ fun i hi => hz i ((rankOne_zeroDim hapos i).mp hi)).1⟩
    rw [rankOne_mulVec, hv, mul_zero, zero_smul]
  have main : ∀ t ≤ us.length, ∃ s k, states[t]? = some s ∧ Holds s k := by
    intro t
    induction t with
    | zero =>
      intro _
      obtain ⟨p, x, hp, hgau⟩ := hM.init
      obtain ⟨L, hL, -, hLP⟩ := hgau.linearize qr svd hr cb u₀ x rfl hp
      have hini : (buildTaylorFilter (K := K) qr svd D cb false).initPrepare u₀
          (keyAt rng key (u₀ :: us).length 0) = dummyElem D (some m0) L (some 0) u₀ (some D.vec) := by
        change tInitNonAssoc qr svd D cb u₀ = _
        rw [tInitNonAssoc, hL]
      exact ⟨_, ⟨m0, L0 * L0ᵀ, 0⟩, (hrun.first u₀ rfl).trans (congrArg some hini), rfl, ⟨L, rfl, hLP⟩, rfl⟩
    | succ t ih =>
      intro ht
      obtain ⟨s, k, hs, hh⟩ := ih (Nat.le_of_succ_le ht)
      obtain ⟨k', h1, -⟩ := hstep us[t] (List.getElem_mem ht) s k hh
      exact ⟨_, k', hrun.step t us[t] s (by simp) hs, h1⟩
  refine ⟨states, hst, by simpa using hrun.length_eq, fun t u hu => ?_⟩
  obtain ⟨ht, rfl⟩ := List.getElem?_eq_some_iff.mp hu
  obtain ⟨s, k, hs, hh⟩ := main t ht.le
  have hmem : us[t] ∈ us := List.getElem_mem ht
  obtain ⟨k', h1, h2⟩ := hstep us[t] hmem s k hh
  obtain ⟨L', hL', hP'⟩ := h1.cov
  -- the transition covariances of the model are nonsingular
  have hdet : ∀ u ∈ us, (L u * (L u)ᵀ).det ≠ 0 := fun u hu => by
    obtain ⟨p, xP, xC, -, h⟩ := hM.dynamics u hu s hh.finite
    exact h.cond.det_ne_zero
  have hcont : ∀ u ∈ us, Measurable fun z : Fin nx → ℝ => ENNReal.ofReal (Real.exp (φ u (w u ⬝ᵥ z))) := fun u hu => by
    obtain ⟨p, x, -, h⟩ := hM.observation u hu s hh.finite
    have h1 : Measurable (φ u) := h.smooth.continuous.measurable
    have h2 : Measurable fun z : Fin nx → ℝ => w u ⬝ᵥ z := by unfold dotProduct; fun_prop
    exact ENNReal.measurable_ofReal.comp (Real.measurable_exp.comp (h1.comp h2))
  refine ⟨_, k'.m, L', hrun.step t us[t] s (by simp) hs, h1.mean, hL', h1.finite.2.2, ?_, fun v hv hwv hz =>
    ⟨gauss_hyperplane_eq _ _ _ (by rw [hP']; exact h2 v hwv hz), fun a => ?_⟩⟩
  · obtain ⟨m1, m2⟩ := fk_positive ((us.take (t + 1)).map fun u => ridgeStep (F u) (c u) (L u) (φ u) (w u)) (by
      intro st hst
      obtain ⟨u, hu, rfl⟩ := List.mem_map.mp hst
      have hu' := List.mem_of_mem_take hu
      exact ⟨measurable_gauss_kernel _ _ _, fun x => inferInstanceAs (IsProbabilityMeasure (gauss _ _)), _, hcont u hu',
        fun x => (ENNReal.ofReal_pos.mpr (Real.exp_pos _)).ne', rfl⟩)
    intro h0
    rw [fkExp, lintegral_eq_zero_iff m1] at h0
    obtain ⟨x, hx⟩ := h0.exists
    exact m2 x hx
  · have htake : ((us.take (t + 1)).map fun u => ridgeStep (F u) (c u) (L u) (φ u) (w u)) =
        ((us.take t).map fun u => ridgeStep (F u) (c u) (L u) (φ u) (w u)) ++
          [ridgeStep (F us[t]) (c us[t]) (L us[t]) (φ us[t]) (w us[t])] := by
      rw [List.take_add_one, hu, List.map_append]; rfl
    have hlen : ((us.take t).map fun u => ridgeStep (F u) (c u) (L u) (φ u) (w u)).length = t := by simp [ht.le]
    have hsn := fkExp_snoc (gauss m0 L0) ((us.take t).map fun u => ridgeStep (F u) (c u) (L u) (φ u) (w u))
      (ridgeStep (F us[t]) (c us[t]) (L us[t]) (φ us[t]) (w us[t])) (({z | v ⬝ᵥ z = a} : Set (Fin nx → ℝ)).indicator 1)
    rw [hlen] at hsn
    rw [htake, hsn]
    have hz0 : ∀ x : Fin nx → ℝ, ∫⁻ x', (ridgeStep (F us[t]) (c us[t]) (L us[t]) (φ us[t]) (w us[t])).pot x x' *
        ({z | v ⬝ᵥ z = a} : Set (Fin nx → ℝ)).indicator 1 x'
          ∂(ridgeStep (F us[t]) (c us[t]) (L us[t]) (φ us[t]) (w us[t])).kernel x = 0 := by
      intro x
      have hnull := gauss_hyperplane_null (F us[t] *ᵥ x + c us[t]) (L us[t]) (hdet _ hmem) v hv a
      refine (lintegral_congr_ae ?_).trans lintegral_zero
      have : ∀ᵐ z ∂gauss (F us[t] *ᵥ x + c us[t]) (L us[t]), z ∉ {z : Fin nx → ℝ | v ⬝ᵥ z = a} :=
        measure_eq_zero_iff_ae_notMem.mp hnull
      filter_upwards [this] with z hz
      have e : ({z | v ⬝ᵥ z = a} : Set (Fin nx → ℝ)).indicator (1 : (Fin nx → ℝ) → ℝ≥0∞) z = 0 :=
        Set.indicator_of_notMem (s := {z | v ⬝ᵥ z = a}) hz _
      rw [e, mul_zero]
    simp only [hz0]
    have hzero : ∀ (ss : List (FKStep (Fin nx → ℝ))) (x : Fin nx → ℝ), fkPathExp ss (fun _ => 0) x = 0 := by
      intro ss
      induction ss with
      | nil => intro x; rfl
      | cons s ss ih => intro x; simp [fkPathExp, ih]
    simp [fkExp, hzero]


/-! ## Non-vacuity -/

/-- The log likelihood of a home win in an Elo model, as in `docs/quickstart.md`. -/
def logSigmoid (a : ℝ) : ℝ := -Real.log (1 + Real.exp (-a))

theorem logSigmoid_deriv : deriv logSigmoid = fun a => (1 + Real.exp a)⁻¹ := by
  funext a
  have h1 : HasDerivAt (fun a : ℝ => 1 + Real.exp (-a)) (Real.exp (-a) * -1) a :=
    ((hasDerivAt_neg a).exp).const_add 1
  have hp : (0 : ℝ) < 1 + Real.exp (-a) := by positivity
  have h2 : HasDerivAt logSigmoid (-((Real.exp (-a) * -1) / (1 + Real.exp (-a)))) a := (h1.log hp.ne').neg
  rw [h2.deriv, Real.exp_neg]
  have := Real.exp_pos a
  field_simp
  ring

theorem logSigmoid_concave (a : ℝ) : deriv (deriv logSigmoid) a < 0 := by
  rw [logSigmoid_deriv]
  have hp : (0 : ℝ) < 1 + Real.exp a := by positivity
  have h : HasDerivAt (fun a : ℝ => (1 + Real.exp a)⁻¹) (-Real.exp a / (1 + Real.exp a) ^ 2) a :=
    ((Real.hasDerivAt_exp a).const_add 1).inv hp.ne'
  rw [h.deriv]
  exact div_neg_of_neg_of_pos (neg_neg_of_pos (Real.exp_pos a)) (by positivity)

theorem logSigmoid_smooth : ContDiff ℝ 2 logSigmoid := by
  unfold logSigmoid
  refine (ContDiff.log ?_ fun a => ?_).neg
  · fun_prop
  · have := Real.exp_pos (-a)
    positivity

/-- Three teams, a random walk of the skills, matches between teams 0 and 1, linearised at the predicted mean; team 2
does not play. The direction `e 0 + e 1` meets the conditions of `taylor_ridge_overconfident`. -/
theorem exists_elo_model : ∃ cb : TCallbacks 3 0 Unit, cb.rtol = 1 / 10 ∧ cb.ignoreNanDims = true ∧
    (∀ us : List Unit, RidgeModel cb () us 0 1 (fun _ => 1) (fun _ => 0) (fun _ => 1) (fun _ => logSigmoid)
      (fun _ => ![1, -1, 0])) ∧ (![1, 1, 0] : Fin 3 → ℝ) ≠ 0 ∧ (![1, -1, 0] : Fin 3 → ℝ) ⬝ᵥ ![1, 1, 0] = 0 ∧
    ∀ i, (![1, -1, 0] : Fin 3 → ℝ) i = 0 → (![1, 1, 0] : Fin 3 → ℝ) i = 0 := by
  have hone : WellConditioned (1 / 10) ((1 : Matrix (Fin 3) (Fin 3) ℝ) * (1 : Matrix (Fin 3) (Fin 3) ℝ)ᵀ) := by
    rw [Matrix.transpose_one, Matrix.mul_one]
    exact ⟨Matrix.isSymm_one, 1, 1, one_pos, by norm_num, fun x => by simp⟩
  obtain ⟨pi, hpi, hpiAD⟩ := exists_potential (n := 3) fun x => gaussLogDensity 0 (1 * 1ᵀ) x + 0
  obtain ⟨pd, hpdAD, hpd⟩ := exists_gaussian_condDensity (nx := 3) (ny := 3) 1 0 (1 * 1ᵀ)
  obtain ⟨pp, hpp, hppAD⟩ := exists_potential (n := 3) fun x => logSigmoid ((![1, -1, 0] : Fin 3 → ℝ) ⬝ᵥ x)
  refine ⟨{ getInit := fun _ => (pi, fun _ => some 7)
            getDynamics := fun s _ => (pd, fun i => some ((s.mean.getD 0) i), fun i => some ((s.mean.getD 0) i))
            getObservation := fun s _ => .potential pp fun i => some ((s.mean.getD 0) i)
            rtol := 1 / 10
            ignoreNanDims := true }, rfl, rfl, fun us => ⟨⟨pi, fun _ => 7, rfl, hpiAD, hone, 0, fun x => by rw [hpi]⟩,
    fun u _ s _ => ⟨pd, _, _, rfl, hpdAD, hone, 0, fun x z => ?_⟩,
    fun u _ s _ => ⟨pp, _, rfl, hppAD, logSigmoid_smooth, logSigmoid_concave, fun x => by rw [hpp], fun h => ?_⟩⟩,
    fun h => ?_, ?_, ?_⟩
  · have h1 := hpd (fun i => some (z i)) x (fun i => z i.1)
    have h2 : fillObs (fun i => some (z i)) (fun i : Obs (fun i => some (z i)) => z i.1) =
        fun i => some (z i) := by
      funext i; simp [fillObs]
    rw [h2] at h1
    rw [h1, ← gaussLogDensity_reindex (obsAll z)]; rfl
  · have := congrFun h 0
    simp at this
  · have := congrFun h 0
    simp at this
  · simp [dotProduct, Fin.sum_univ_three]
  · intro i
    fin_cases i <;> simp

/-- Non-vacuity for the partial theorem: a potential of one component of three. -/
example (a : ℝ) (ha : 0 < a) :
    SemiConditioned (1 / 10) (Matrix.of fun i j => a * ((![1, 0, 0] : Fin 3 → ℝ) i * (![1, 0, 0] : Fin 3 → ℝ) j)) ∧
    ∀ v : Fin 3 → ℝ, (Matrix.of fun i j => a * ((![1, 0, 0] : Fin 3 → ℝ) i * (![1, 0, 0] : Fin 3 → ℝ) j)) *ᵥ v = 0 →
      ∀ i, v i ≠ 0 → ZeroDim (Matrix.of fun i j => a * ((![1, 0, 0] : Fin 3 → ℝ) i * (![1, 0, 0] : Fin 3 → ℝ) j)) i := by
  refine ⟨rankOne_semiConditioned (by norm_num) ha fun h => ?_, fun v hv i hi => (rankOne_zeroDim ha i).mpr ?_⟩
  · have := congrFun h 0
    simp at this
  · rw [rankOne_mulVec] at hv
    have h0 := congrFun hv 0
    simp [dotProduct, Fin.sum_univ_three, ha.ne'] at h0
    fin_cases i
    · exact absurd h0 hi
    · rfl
    · rfl


end

end Cuthbert.Linearize
