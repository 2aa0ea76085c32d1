import Verif.Lemmas.Linearize
import Mathlib.Analysis.Calculus.FDeriv.Linear
import Mathlib.Analysis.Calculus.FDeriv.Add
import Mathlib.Topology.Algebra.Module.FiniteDimension
import Mathlib.Analysis.Matrix.PosDef

/-!
# Theorems about linearisation (C34 to C36)
-/

namespace Cuthbert.Linearize
open Matrix Cuthbert Asymptotics Filter Topology

noncomputable section

set_option linter.unusedSectionVars false

variable {nx ny n : ℕ} {ι κ : Type*} [Fintype ι] [Fintype κ] [DecidableEq ι] [DecidableEq κ]

/-! ## Well-conditioned matrices -/

theorem _root_.Cuthbert.WellConditioned.det_ne_zero {rtol : ℝ} {R : Matrix ι ι ℝ}
    (h : WellConditioned rtol R) : R.det ≠ 0 := by
  obtain ⟨-, lo, hi, hlo, -, hb⟩ := h
  intro h0
  obtain ⟨v, hv, hv0⟩ := Matrix.exists_mulVec_eq_zero_iff.mpr h0
  have h1 := (hb v).1
  rw [hv0, dotProduct_zero] at h1
  have h2 : 0 ≤ v ⬝ᵥ v := Finset.sum_nonneg fun i _ => mul_self_nonneg _
  have h3 : v ⬝ᵥ v = 0 := by nlinarith
  exact hv (dotProduct_self_eq_zero.mp h3)

/-- The inverse of a well-conditioned matrix is as well conditioned. -/
theorem _root_.Cuthbert.WellConditioned.inv {rtol : ℝ} {R : Matrix ι ι ℝ} (h : WellConditioned rtol R) :
    WellConditioned rtol R⁻¹ := by
  have hdet := h.det_ne_zero
  obtain ⟨hs, lo, hi, hlo, hc, hb⟩ := h
  have hsi : (R⁻¹).IsSymm := by rw [Matrix.IsSymm, Matrix.transpose_nonsing_inv, hs.eq]
  rcases isEmpty_or_nonempty ι with he | ⟨⟨i₀⟩⟩
  · exact ⟨hsi, 1, 0, one_pos, by simp, fun x => by simp [dotProduct]⟩
  have hhi : 0 < hi := by
    have := hb (Pi.single i₀ 1)
    simp at this
    linarith [this.1, this.2]
  have hR : ∀ x, R *ᵥ (R⁻¹ *ᵥ x) = x := fun x => by
    rw [Matrix.mulVec_mulVec, Matrix.mul_nonsing_inv _ hdet.isUnit, Matrix.one_mulVec]
  refine ⟨hsi, 1 / hi, 1 / lo, by positivity, ?_, fun x => ?_⟩
  · rw [mul_one_div, div_lt_div_iff₀ hlo hhi]; linarith
  obtain ⟨w, hw⟩ : ∃ w, w = R⁻¹ *ᵥ x := ⟨_, rfl⟩
  have hRw : R *ᵥ w = x := by rw [hw, hR]
  rw [← hw]
  have hwx : w ⬝ᵥ R *ᵥ x = x ⬝ᵥ x := by
    rw [Matrix.dotProduct_mulVec, ← Matrix.mulVec_transpose, hs.eq, hRw]
  constructor
  · have h1 := (hb (w + (-(1 / hi)) • x)).1
    rw [quad_expand hs, hRw] at h1
    have hq : x ⬝ᵥ R *ᵥ x ≤ hi * (x ⬝ᵥ x) := (hb x).2
    have hn : 0 ≤ (w + (-(1 / hi)) • x) ⬝ᵥ (w + (-(1 / hi)) • x) :=
      Finset.sum_nonneg fun i _ => mul_self_nonneg _
    rw [dotProduct_comm w x] at h1
    have h2 : 0 ≤ x ⬝ᵥ w + -(1 / hi) * (2 * (x ⬝ᵥ x)) + (-(1 / hi)) ^ 2 * (hi * (x ⬝ᵥ x)) := by
      have : (-(1 / hi)) ^ 2 * (x ⬝ᵥ R *ᵥ x) ≤ (-(1 / hi)) ^ 2 * (hi * (x ⬝ᵥ x)) :=
        mul_le_mul_of_nonneg_left hq (by positivity)
      nlinarith [mul_nonneg hlo.le hn]
    have h3 : -(1 / hi) * (2 * (x ⬝ᵥ x)) + (-(1 / hi)) ^ 2 * (hi * (x ⬝ᵥ x)) = -(1 / hi * (x ⬝ᵥ x)) := by
      field_simp
      ring
    linarith
  · have h1 := (hb w).1
    rw [hRw, dotProduct_comm w x] at h1
    have hn : 0 ≤ (x - lo • w) ⬝ᵥ (x - lo • w) := Finset.sum_nonneg fun i _ => mul_self_nonneg _
    rw [sub_dotProduct, dotProduct_sub, dotProduct_sub, smul_dotProduct, smul_dotProduct, dotProduct_smul,
      dotProduct_smul, dotProduct_comm w x] at hn
    simp only [smul_eq_mul] at hn
    have h2 : lo * (x ⬝ᵥ w) ≤ x ⬝ᵥ x := by nlinarith
    rw [one_div, inv_mul_eq_div, le_div_iff₀ hlo]
    linarith

/-- Principal submatrices of a well-conditioned matrix are well conditioned. -/
theorem _root_.Cuthbert.WellConditioned.obs {rtol : ℝ} {R : Matrix (Fin ny) (Fin ny) ℝ}
    (h : WellConditioned rtol R) (y : Fin ny → Option ℝ) :
    WellConditioned rtol (R.submatrix Subtype.val Subtype.val : Matrix (Obs y) (Obs y) ℝ) := by
  obtain ⟨hs, lo, hi, hlo, hc, hb⟩ := h
  refine ⟨by rw [Matrix.IsSymm, Matrix.transpose_submatrix, hs.eq], lo, hi, hlo, hc, fun x => ?_⟩
  obtain ⟨v, hv⟩ : ∃ v : Fin ny → ℝ, v = fun i => if h : (y i).isNone = false then x ⟨i, h⟩ else 0 :=
    ⟨_, rfl⟩
  have hvo : ∀ i : Obs y, v i.1 = x i := fun i => by rw [hv]; exact dif_pos i.2
  have hvz : ∀ i, y i = none → v i = 0 := fun i hi => by rw [hv]; exact dif_neg (by simp [hi])
  have h1 : v ⬝ᵥ v = x ⬝ᵥ x := by
    rw [dotProduct, ← sum_obs y _ fun i hi => by rw [hvz i hi, zero_mul]]
    exact Finset.sum_congr rfl fun i _ => by rw [hvo]
  have h2 : v ⬝ᵥ R *ᵥ v = x ⬝ᵥ (R.submatrix Subtype.val Subtype.val : Matrix (Obs y) (Obs y) ℝ) *ᵥ x := by
    rw [dotProduct, ← sum_obs y _ fun i hi => by rw [hvz i hi, zero_mul]]
    refine Finset.sum_congr rfl fun i _ => ?_
    rw [hvo]
    congr 1
    rw [mulVec, dotProduct, ← sum_obs y _ fun i hi => by rw [hvz i hi, mul_zero]]
    exact Finset.sum_congr rfl fun j _ => by rw [hvo]; rfl
  rw [← h1, ← h2]
  exact hb v

/-- Every positive definite matrix is well conditioned for all small enough tolerances. -/
theorem wellConditioned_of_posDef (R : Matrix ι ι ℝ) (hR : R.PosDef) :
    ∃ ε > 0, ∀ rtol < ε, WellConditioned rtol R := by
  have hs : R.IsSymm := by
    have := hR.isHermitian
    rwa [Matrix.IsHermitian, Matrix.conjTranspose_eq_transpose_of_trivial] at this
  rcases isEmpty_or_nonempty ι with he | hne
  · exact ⟨1, one_pos, fun _ _ => ⟨hs, 1, 0, one_pos, by simp, fun x => by simp [dotProduct]⟩⟩
  have hcomp : IsCompact {x : ι → ℝ | x ⬝ᵥ x = 1} := by
    refine Metric.isCompact_of_isClosed_isBounded
      (isClosed_eq (by simp only [dotProduct]; fun_prop) continuous_const) ?_
    refine (Metric.isBounded_closedBall (x := (0 : ι → ℝ)) (r := 1)).subset fun x hx => ?_
    rw [mem_closedBall_zero_iff, pi_norm_le_iff_of_nonneg zero_le_one]
    intro i
    have h1 : x i * x i ≤ 1 := by
      rw [← (hx : x ⬝ᵥ x = 1)]
      exact Finset.single_le_sum (f := fun i => x i * x i) (fun j _ => mul_self_nonneg _) (Finset.mem_univ i)
    rw [Real.norm_eq_abs, ← sq_le_one_iff_abs_le_one]
    nlinarith
  have hnonempty : {x : ι → ℝ | x ⬝ᵥ x = 1}.Nonempty :=
    ⟨Pi.single (Classical.arbitrary ι) 1, by simp⟩
  have hcont : Continuous fun x : ι → ℝ => x ⬝ᵥ R *ᵥ x := by
    simp only [dotProduct, mulVec]; fun_prop
  obtain ⟨a, ha, hamin⟩ := hcomp.exists_isMinOn hnonempty hcont.continuousOn
  obtain ⟨b, hb, hbmax⟩ := hcomp.exists_isMaxOn hnonempty hcont.continuousOn
  have hpos : ∀ x : ι → ℝ, x ≠ 0 → 0 < x ⬝ᵥ R *ᵥ x := fun x hx => by
    have := hR.dotProduct_mulVec_pos hx
    simpa using this
  have hne0 : ∀ x : ι → ℝ, x ⬝ᵥ x = 1 → x ≠ 0 := by
    rintro x hx rfl
    simp at hx
  obtain ⟨lo, hlo⟩ : ∃ lo, lo = a ⬝ᵥ R *ᵥ a := ⟨_, rfl⟩
  obtain ⟨hi, hhi⟩ : ∃ hi, hi = b ⬝ᵥ R *ᵥ b := ⟨_, rfl⟩
  have hlo0 : 0 < lo := hlo ▸ hpos a (hne0 a ha)
  have hhi0 : 0 < hi := hhi ▸ hpos b (hne0 b hb)
  refine ⟨lo / hi, by positivity, fun rtol hrt => ⟨hs, lo, hi, hlo0, by rwa [lt_div_iff₀ hhi0] at hrt,
    fun x => ?_⟩⟩
  by_cases hx : x = 0
  · subst hx; simp
  have hxx : 0 < x ⬝ᵥ x := by
    refine lt_of_le_of_ne (Finset.sum_nonneg fun i _ => mul_self_nonneg _) fun h => hx ?_
    exact dotProduct_self_eq_zero.mp h.symm
  obtain ⟨r, hr⟩ : ∃ r, r = Real.sqrt (x ⬝ᵥ x) := ⟨_, rfl⟩
  have hr0 : 0 < r := hr ▸ Real.sqrt_pos.mpr hxx
  have hr2 : r * r = x ⬝ᵥ x := hr ▸ Real.mul_self_sqrt hxx.le
  have hu : (r⁻¹ • x) ⬝ᵥ (r⁻¹ • x) = 1 := by
    rw [smul_dotProduct, dotProduct_smul, ← hr2, smul_eq_mul, smul_eq_mul]
    field_simp
  have hq : x ⬝ᵥ R *ᵥ x = (x ⬝ᵥ x) * ((r⁻¹ • x) ⬝ᵥ R *ᵥ (r⁻¹ • x)) := by
    rw [Matrix.mulVec_smul, smul_dotProduct, dotProduct_smul, ← hr2, smul_eq_mul, smul_eq_mul]
    field_simp
  have h1 : lo ≤ (r⁻¹ • x) ⬝ᵥ R *ᵥ (r⁻¹ • x) := hlo ▸ hamin hu
  have h2 : (r⁻¹ • x) ⬝ᵥ R *ᵥ (r⁻¹ • x) ≤ hi := hhi ▸ hbmax hu
  rw [hq]
  constructor <;> nlinarith

/-! ## C34 -/

/-- **C34** (exactness). If for the missing pattern of `y` the density is, up to a constant, that of
`N(H x + d, R)` restricted to the observed components, then at every `x` and `y` the rows returned for the
observed components are those of `H` and `d`, and the factor is lower triangular with `L Lᵀ` the observed
block of `R`. Missing components (allowed only with `ignore_nan_dims`) get NaN on the diagonal and zeros
elsewhere. -/
theorem linearize_log_density_exact (qr : QR) (svd : SVD) (rtol : ℝ) (hr : 0 ≤ rtol) (ign : Bool)
    (p : CondDensity nx ny) (hAD : p.AD) (H : Matrix (Fin ny) (Fin nx) ℝ) (d : Fin ny → ℝ)
    (R : Matrix (Fin ny) (Fin ny) ℝ) (x : Fin nx → ℝ) (y : Fin ny → Option ℝ)
    (hign : ign = true ∨ ∀ i, y i ≠ none)
    (hR : WellConditioned rtol (R.submatrix Subtype.val Subtype.val : Matrix (Obs y) (Obs y) ℝ))
    (c : ℝ) (hp : ∀ (x : Fin nx → ℝ) (z : Obs y → ℝ), p.value x (fillObs y z) =
      gaussLogDensity (obsH y H *ᵥ x + obsV y d) (R.submatrix Subtype.val Subtype.val) z + c) :
    ∃ L : Matrix (Obs y) (Obs y) ℝ,
      (∀ (i : Obs y) j, (linearizeLogDensity qr svd rtol ign p (fun k => some (x k)) y).1 i.1 j =
        some (H i.1 j)) ∧
      (∀ i : Obs y, (linearizeLogDensity qr svd rtol ign p (fun k => some (x k)) y).2.1 i.1 =
        some (d i.1)) ∧
      (∀ i j : Obs y, (linearizeLogDensity qr svd rtol ign p (fun k => some (x k)) y).2.2 i.1 j.1 =
        some (L i j)) ∧
      (∀ i j : Obs y, i < j → L i j = 0) ∧ L * Lᵀ = R.submatrix Subtype.val Subtype.val ∧
      (∀ i, y i = none → (linearizeLogDensity qr svd rtol ign p (fun k => some (x k)) y).2.2 i i = none) ∧
      ∀ i j, i ≠ j → y i = none ∨ y j = none →
        (linearizeLogDensity qr svd rtol ign p (fun k => some (x k)) y).2.2 i j = some 0 := by
  obtain ⟨S, hS⟩ : ∃ S : Matrix (Obs y) (Obs y) ℝ, S = R.submatrix Subtype.val Subtype.val := ⟨_, rfl⟩
  rw [← hS] at hR ⊢
  have hdet := hR.det_ne_zero
  obtain ⟨c', hc'⟩ := gaussLogDensity_quadForm (obsH y H) (obsV y d) S
  have hon : ∀ x, p.on y x = quadForm (obsH y H) (obsV y d) S⁻¹ (c' + c) x := by
    intro x; funext z
    rw [CondDensity.on, hp, ← hS, hc', quadForm, quadForm]; ring
  have hcd : ContDiff ℝ 2 fun q : (Fin nx → ℝ) × (Obs y → ℝ) => p.on y q.1 q.2 := by
    simp only [hon]; exact contDiff_quadForm _ _ _ _
  have hsi := (hR.inv).1
  obtain ⟨L, l1, l2, l3, l4, l5, l6, l7⟩ := linearizeLogDensity_eq qr svd rtol hr ign p x y hign
    (fun i => -(S⁻¹ *ᵥ (obsY y - (obsH y H *ᵥ x + obsV y d))) i) (S⁻¹ * obsH y H) S⁻¹ (hR.inv)
    (fun i => by rw [hAD.grad x y hcd, hon, quadForm_grad hsi])
    (fun i j => by rw [hAD.jac x y hcd]; simp only [hon]; rw [quadForm_jac hsi])
    (fun i j => by rw [hAD.hess x y hcd]; simp only [hon]; rw [quadForm_hess hsi])
    (hAD.missing x y hcd)
  have hLL : L * Lᵀ = S := by
    have := Matrix.inv_eq_right_inv l2
    rw [← this, Matrix.nonsing_inv_nonsing_inv _ hdet.isUnit]
  have hmat : L * Lᵀ * (S⁻¹ * obsH y H) = obsH y H := by
    rw [hLL, ← Matrix.mul_assoc, Matrix.mul_nonsing_inv _ hdet.isUnit, Matrix.one_mul]
  refine ⟨L, fun i j => ?_, fun i => ?_, l5, l1, hLL, l6, l7⟩
  · rw [l3, hmat]; rfl
  · rw [l4, hmat]
    have hneg : (fun i => -(S⁻¹ *ᵥ (obsY y - (obsH y H *ᵥ x + obsV y d))) i) =
        -(S⁻¹ *ᵥ (obsY y - (obsH y H *ᵥ x + obsV y d))) := rfl
    rw [hneg, hLL, Matrix.mulVec_neg, Matrix.mulVec_mulVec, Matrix.mul_nonsing_inv _ hdet.isUnit,
      Matrix.one_mulVec]
    congr 1
    simp only [Pi.add_apply, Pi.sub_apply, Pi.neg_apply, obsV]
    ring

/-- **C34** (given factor). With the factor supplied by the caller nothing needs to be well conditioned:
only `L Lᵀ = R` nonsingular on the observed components. -/
theorem linearize_given_chol_cov_exact (ign : Bool) (p : CondDensity nx ny) (hAD : p.AD)
    (H : Matrix (Fin ny) (Fin nx) ℝ) (d : Fin ny → ℝ) (x : Fin nx → ℝ) (y : Fin ny → Option ℝ)
    (hign : ign = true ∨ ∀ i, y i ≠ none) (C : NMat ny) (L : Matrix (Obs y) (Obs y) ℝ)
    (h1 : ∀ i j : Obs y, C i.1 j.1 = some (L i j)) (h2 : ∀ i, y i = none → C i i = none)
    (hL : (L * Lᵀ).det ≠ 0) (c : ℝ)
    (hp : ∀ (x : Fin nx → ℝ) (z : Obs y → ℝ), p.value x (fillObs y z) =
      gaussLogDensity (obsH y H *ᵥ x + obsV y d) (L * Lᵀ) z + c) (i : Obs y) :
    (∀ j, (linearizeGivenCholCov ign p (fun k => some (x k)) y C).1 i.1 j = some (H i.1 j)) ∧
    (linearizeGivenCholCov ign p (fun k => some (x k)) y C).2 i.1 = some (d i.1) := by
  obtain ⟨S, hS⟩ : ∃ S : Matrix (Obs y) (Obs y) ℝ, S = L * Lᵀ := ⟨_, rfl⟩
  rw [← hS] at hL
  obtain ⟨c', hc'⟩ := gaussLogDensity_quadForm (obsH y H) (obsV y d) S
  have hon : ∀ x, p.on y x = quadForm (obsH y H) (obsV y d) S⁻¹ (c' + c) x := by
    intro x; funext z
    rw [CondDensity.on, hp, ← hS, hc', quadForm, quadForm]; ring
  have hcd : ContDiff ℝ 2 fun q : (Fin nx → ℝ) × (Obs y → ℝ) => p.on y q.1 q.2 := by
    simp only [hon]; exact contDiff_quadForm _ _ _ _
  have hsi : (S⁻¹).IsSymm := by
    rw [Matrix.IsSymm, Matrix.transpose_nonsing_inv, hS, Matrix.transpose_mul, Matrix.transpose_transpose]
  obtain ⟨cov, hcov⟩ : ∃ cov, cov = if ign then cholCovWithNansToCov C else nanMatMul C fun i j => C j i :=
    ⟨_, rfl⟩
  obtain ⟨c1, c2⟩ := cov_obs ign y hign C L h1 h2 cov hcov
  rw [← hS] at c1
  have hgrad : ∀ k : Obs y, p.grad (fun k => some (x k)) y k.1 =
      some (-(S⁻¹ *ᵥ (obsY y - (obsH y H *ᵥ x + obsV y d))) k) := fun k => by
    rw [hAD.grad x y hcd, hon, quadForm_grad hsi]
  have hjac : ∀ (k : Obs y) j, p.jac (fun k => some (x k)) y k.1 j = some ((S⁻¹ * obsH y H) k j) :=
    fun k j => by rw [hAD.jac x y hcd]; simp only [hon]; rw [quadForm_jac hsi]
  have hmat : ∀ j, nanMatMul cov (p.jac (fun k => some (x k)) y) i.1 j = some (H i.1 j) := by
    intro j
    have hH : H i.1 j = (S * (S⁻¹ * obsH y H)) i j := by
      rw [← Matrix.mul_assoc, Matrix.mul_nonsing_inv _ hL.isUnit, Matrix.one_mul]; rfl
    rw [hH, Matrix.mul_apply]
    refine nanSum_obs y _ _ (fun k => ?_) fun k hk => ?_
    · rw [c1, hjac]; rfl
    · obtain ⟨r, hr'⟩ := Option.ne_none_iff_exists'.mp ((hAD.missing x y hcd k hk).2 j)
      rw [c2 i k hk, hr']; simp [nanMul]
  have hcg : nanMatVec cov (p.grad (fun k => some (x k)) y) i.1 =
      some ((S *ᵥ -(S⁻¹ *ᵥ (obsY y - (obsH y H *ᵥ x + obsV y d)))) i) := by
    refine nanSum_obs y _ _ (fun k => ?_) fun k hk => ?_
    · rw [c1, hgrad]; rfl
    · obtain ⟨r, hr'⟩ := Option.ne_none_iff_exists'.mp (hAD.missing x y hcd k hk).1
      rw [c2 i k hk, hr']; simp [nanMul]
  rw [Matrix.mulVec_neg, Matrix.mulVec_mulVec, Matrix.mul_nonsing_inv _ hL.isUnit, Matrix.one_mulVec] at hcg
  have hmx : nanMatVec (nanMatMul cov (p.jac (fun k => some (x k)) y)) (fun k => some (x k)) i.1 =
      some ((H *ᵥ x) i.1) := nanSum_some fun k => by rw [hmat]; rfl
  have hy : y i.1 = some (obsY y i) := by
    have := isNone_false.mp i.2
    simp only [obsY]
    cases h : y i.1 with
    | none => exact absurd h this
    | some v => rfl
  simp only [linearizeGivenCholCov, ← hcov]
  refine ⟨hmat, ?_⟩
  rw [hy, hmx, hcg]
  have hob : (obsH y H *ᵥ x) i = (H *ᵥ x) i.1 := rfl
  change some (obsY y i - (H *ᵥ x) i.1 + _) = _
  congr 1
  simp only [Pi.add_apply, Pi.sub_apply, Pi.neg_apply, obsV, hob]
  ring

/-- **C34** (general densities). For a density that is twice continuously differentiable, with a
well-conditioned negative Hessian in the observed components of `y` at the point, the linear-Gaussian
density returned has there the same gradient and Hessian in `y`, and the same mixed derivatives in `y` and `x`. -/
theorem linearize_log_density_matches (qr : QR) (svd : SVD) (rtol : ℝ) (hr : 0 ≤ rtol) (ign : Bool)
    (p : CondDensity nx ny) (hAD : p.AD) (x : Fin nx → ℝ) (y : Fin ny → Option ℝ)
    (hign : ign = true ∨ ∀ i, y i ≠ none)
    (hcd : ContDiff ℝ 2 fun q : (Fin nx → ℝ) × (Obs y → ℝ) => p.value q.1 (fillObs y q.2))
    (hP : WellConditioned rtol (Matrix.of fun i j : Obs y =>
      -lineDeriv ℝ (fun z => lineDeriv ℝ (fun z => p.value x (fillObs y z)) z (Pi.single i 1)) (obsY y)
        (Pi.single j 1))) :
    ∃ (M : Matrix (Obs y) (Fin nx) ℝ) (s : Obs y → ℝ) (L : Matrix (Obs y) (Obs y) ℝ),
      (∀ (i : Obs y) j, (linearizeLogDensity qr svd rtol ign p (fun k => some (x k)) y).1 i.1 j =
        some (M i j)) ∧
      (∀ i : Obs y, (linearizeLogDensity qr svd rtol ign p (fun k => some (x k)) y).2.1 i.1 = some (s i)) ∧
      (∀ i j : Obs y, (linearizeLogDensity qr svd rtol ign p (fun k => some (x k)) y).2.2 i.1 j.1 =
        some (L i j)) ∧
      (∀ i, lineDeriv ℝ (fun z => gaussLogDensity (M *ᵥ x + s) (L * Lᵀ) z) (obsY y) (Pi.single i 1) =
        lineDeriv ℝ (fun z => p.value x (fillObs y z)) (obsY y) (Pi.single i 1)) ∧
      (∀ i j, lineDeriv ℝ (fun z => lineDeriv ℝ (fun z => gaussLogDensity (M *ᵥ x + s) (L * Lᵀ) z) z
          (Pi.single i 1)) (obsY y) (Pi.single j 1) =
        lineDeriv ℝ (fun z => lineDeriv ℝ (fun z => p.value x (fillObs y z)) z (Pi.single i 1)) (obsY y)
          (Pi.single j 1)) ∧
      ∀ i j, lineDeriv ℝ (fun x => lineDeriv ℝ (fun z => gaussLogDensity (M *ᵥ x + s) (L * Lᵀ) z) (obsY y)
          (Pi.single i 1)) x (Pi.single j 1) =
        lineDeriv ℝ (fun x => lineDeriv ℝ (fun z => p.value x (fillObs y z)) (obsY y) (Pi.single i 1)) x
          (Pi.single j 1) := by
  obtain ⟨P, hPd⟩ : ∃ P : Matrix (Obs y) (Obs y) ℝ, P = Matrix.of fun i j : Obs y =>
      -lineDeriv ℝ (fun z => lineDeriv ℝ (fun z => p.value x (fillObs y z)) z (Pi.single i 1)) (obsY y)
        (Pi.single j 1) := ⟨_, rfl⟩
  obtain ⟨g, hg⟩ : ∃ g : Obs y → ℝ, g = fun i => lineDeriv ℝ (fun z => p.value x (fillObs y z)) (obsY y)
    (Pi.single i 1) := ⟨_, rfl⟩
  obtain ⟨J, hJ⟩ : ∃ J : Matrix (Obs y) (Fin nx) ℝ, J = Matrix.of fun i j =>
    lineDeriv ℝ (fun x => lineDeriv ℝ (fun z => p.value x (fillObs y z)) (obsY y) (Pi.single i 1)) x
          (Pi.single j 1) := ⟨_, rfl⟩
  rw [← hPd] at hP
  have hdet := hP.det_ne_zero
  obtain ⟨L, l1, l2, l3, l4, l5, -, -⟩ := linearizeLogDensity_eq qr svd rtol hr ign p x y hign g J P hP
    (fun i => by rw [hAD.grad x y hcd, hg]; rfl) (fun i j => by rw [hAD.jac x y hcd, hJ]; rfl)
    (fun i j => by rw [hAD.hess x y hcd, hPd, Matrix.of_apply, neg_neg]; rfl) (hAD.missing x y hcd)
  have hinv : (L * Lᵀ)⁻¹ = P := Matrix.inv_eq_left_inv l2
  obtain ⟨c, hc⟩ := gaussLogDensity_quadForm (L * Lᵀ * J)
    (obsY y - (L * Lᵀ * J) *ᵥ x + (L * Lᵀ) *ᵥ g) (L * Lᵀ)
  have hc' : ∀ x', (fun z => gaussLogDensity ((L * Lᵀ * J) *ᵥ x' +
      (obsY y - (L * Lᵀ * J) *ᵥ x + (L * Lᵀ) *ᵥ g)) (L * Lᵀ) z) = quadForm (L * Lᵀ * J)
      (obsY y - (L * Lᵀ * J) *ᵥ x + (L * Lᵀ) *ᵥ g) P c x' := fun x' => by
    funext z; rw [hc, hinv]
  refine ⟨L * Lᵀ * J, obsY y - (L * Lᵀ * J) *ᵥ x + (L * Lᵀ) *ᵥ g, L, l3, l4, l5, ?_, ?_, ?_⟩
  · intro i
    rw [hc', quadForm_grad hP.1]
    have : obsY y - ((L * Lᵀ * J) *ᵥ x + (obsY y - (L * Lᵀ * J) *ᵥ x + (L * Lᵀ) *ᵥ g)) =
        -((L * Lᵀ) *ᵥ g) := by abel
    rw [this, Matrix.mulVec_neg, Matrix.mulVec_mulVec, l2, Matrix.one_mulVec, Pi.neg_apply, neg_neg, hg]
  · intro i j
    rw [hc', quadForm_hess hP.1, hPd, Matrix.of_apply, neg_neg]
  · intro i j
    simp only [hc']
    rw [quadForm_jac hP.1, ← Matrix.mul_assoc, l2, Matrix.one_mul, hJ, Matrix.of_apply]

/-- Every function is the value of a program for which the contract holds, so the theorems above apply to
every linear-Gaussian and every smooth log density. -/
theorem exists_condDensity (v : (Fin nx → ℝ) → (Fin ny → Option ℝ) → ℝ) :
    ∃ p : CondDensity nx ny, p.value = v ∧ p.AD := by
  refine ⟨{ value := v
            grad := fun X y i => if h : (y i).isNone = false then
              some (lineDeriv ℝ (fun z => v (fun k => (X k).getD 0) (fillObs y z)) (obsY y)
                (Pi.single ⟨i, h⟩ 1)) else some 0
            hess := fun X y i j => if h : (y i).isNone = false ∧ (y j).isNone = false then
              some (lineDeriv ℝ (fun z => lineDeriv ℝ (fun z => v (fun k => (X k).getD 0) (fillObs y z)) z
                (Pi.single ⟨i, h.1⟩ 1)) (obsY y) (Pi.single ⟨j, h.2⟩ 1)) else none
            jac := fun X y i j => if h : (y i).isNone = false then
              some (lineDeriv ℝ (fun x => lineDeriv ℝ (fun z => v x (fillObs y z)) (obsY y)
                (Pi.single ⟨i, h⟩ 1)) (fun k => (X k).getD 0) (Pi.single j 1)) else some 0 }, rfl, ?_⟩
  refine ⟨fun x y _ i => dif_pos i.2, fun x y _ i j => dif_pos ⟨i.2, j.2⟩, fun x y _ i j => dif_pos i.2, ?_⟩
  intro x y _ i hi
  have : ¬ (y i).isNone = false := by simp [hi]
  simp [this]

/-- In particular there are such programs for the density of `N(H x + d, R)` with missing components dropped,
for every `H`, `d` and `R`. -/
theorem exists_gaussian_condDensity (H : Matrix (Fin ny) (Fin nx) ℝ) (d : Fin ny → ℝ)
    (R : Matrix (Fin ny) (Fin ny) ℝ) : ∃ p : CondDensity nx ny, p.AD ∧
      ∀ (y : Fin ny → Option ℝ) (x : Fin nx → ℝ) (z : Obs y → ℝ), p.value x (fillObs y z) =
        gaussLogDensity (obsH y H *ᵥ x + obsV y d) (R.submatrix Subtype.val Subtype.val) z + 0 := by
  obtain ⟨G, hG⟩ : ∃ G : (Fin nx → ℝ) → (Fin ny → Bool) → (Fin ny → ℝ) → ℝ, G = fun x m w =>
      gaussLogDensity (ι := {i // m i = false}) (H.submatrix Subtype.val id *ᵥ x + fun i => d i.1)
        (R.submatrix Subtype.val Subtype.val) fun i => w i.1 := ⟨_, rfl⟩
  obtain ⟨p, hp, hAD⟩ := exists_condDensity (nx := nx) (ny := ny) fun x y =>
    G x (fun i => (y i).isNone) fun i => (y i).getD 0
  refine ⟨p, hAD, fun y x z => ?_⟩
  have hm : (fun i => (fillObs y z i).isNone) = fun i => (y i).isNone := by
    funext i
    by_cases h : (y i).isNone = false
    · simp [fillObs, h]
    · simp [fillObs, h]
  rw [hp, add_zero]
  simp only []
  rw [hm, hG]
  have hz : (fun i : Obs y => (fillObs y z i.1).getD 0) = z := by
    funext i
    have := i.2
    simp [fillObs, this]
  change gaussLogDensity _ _ (fun i : Obs y => (fillObs y z i.1).getD 0) = _
  rw [hz]
  rfl

/-- Non-vacuity for C34: correlated noise and one missing component out of two. -/
example (y₀ : ℝ) :
    WellConditioned (1 / 10) (!![2, 1; 1, 2].submatrix Subtype.val Subtype.val :
      Matrix (Obs ![some y₀, none]) (Obs ![some y₀, none]) ℝ) := by
  refine WellConditioned.obs ⟨?_, 1, 3, one_pos, by norm_num, fun x => ?_⟩ _
  · ext i j; fin_cases i <;> fin_cases j <;> rfl
  · simp [dotProduct, mulVec, Fin.sum_univ_two]
    constructor <;> nlinarith [sq_nonneg (x 0 + x 1), sq_nonneg (x 0 - x 1)]

/-! ## C35 -/

/-- **C35** (tangency). The returned affine map agrees with the conditional mean at the point and to first
order around it, and the returned factor is the conditional factor at the point. -/
theorem linearize_moments_tangent (f : MomentsFn nx ny) (x : Fin nx → ℝ)
    (hf : DifferentiableAt ℝ (fun x => (f x).1) x) :
    (linearizeMoments f x).1 *ᵥ x + (linearizeMoments f x).2.1 = (f x).1 ∧
    (fun x' => (f x').1 - ((linearizeMoments f x).1 *ᵥ x' + (linearizeMoments f x).2.1))
      =o[𝓝 x] (fun x' => x' - x) ∧
    (linearizeMoments f x).2.2 = (f x).2 := by
  have h1 : (linearizeMoments f x).1 *ᵥ x + (linearizeMoments f x).2.1 = (f x).1 := by
    simp only [linearizeMoments]
    abel
  refine ⟨h1, ?_, rfl⟩
  have h2 := hf.hasFDerivAt.isLittleO
  refine h2.congr_left fun x' => ?_
  have h3 : (linearizeMoments f x).2.1 = (f x).1 - (linearizeMoments f x).1 *ᵥ x := rfl
  have h4 : ∀ v, (linearizeMoments f x).1 *ᵥ v = fderiv ℝ (fun x => (f x).1) x v := by
    intro v
    simp only [linearizeMoments, jacfwd]
    rw [← Matrix.toLin'_apply, Matrix.toLin'_toMatrix']
    rfl
  rw [h3, h4, h4, map_sub]
  abel

/-- **C35** (exactness). For an affine conditional mean the linearisation is exact at every point. -/
theorem linearize_moments_affine (f : MomentsFn nx ny) (F : Matrix (Fin ny) (Fin nx) ℝ) (b : Fin ny → ℝ)
    (hf : ∀ x, (f x).1 = F *ᵥ x + b) (x : Fin nx → ℝ) :
    linearizeMoments f x = (F, b, (f x).2) := by
  have hj : jacfwd (fun x => (f x).1) x = F := by
    have h : (fun x => (f x).1) = fun x => (LinearMap.toContinuousLinearMap (Matrix.toLin' F)) x + b := by
      funext x; rw [hf]; rfl
    rw [jacfwd, h, fderiv_add_const, ContinuousLinearMap.fderiv]
    exact LinearMap.toMatrix'_toLin' F
  simp only [linearizeMoments, hj]
  rw [hf, add_sub_cancel_left]

/-- Non-vacuity for C35: a nonlinear mean. -/
example : DifferentiableAt ℝ (fun x : Fin 2 → ℝ => (((fun x => (![x 0 * x 1, Real.sin (x 0)], 1)) :
    MomentsFn 2 2) x).1) ![1, 2] := by
  refine differentiableAt_pi.mpr fun i => ?_
  fin_cases i <;> simp <;> fun_prop

/-! ## C36 -/

/-- What `linearize_taylor` returns for a given gradient and inverse square root of the precision; `y` marks the
dimensions that are not missing. -/
theorem linearizeTaylor_of_factor (qr : QR) (svd : SVD) (rtol : ℝ) (ign : Bool) (p : Potential n)
    (x : Fin n → ℝ) (y : Fin n → Option ℝ) (hign : ign = true ∨ ∀ i, y i ≠ none) (G : Fin n → ℝ)
    (hg : ∀ i, p.grad (fun k => some (x k)) i = some (G i)) (C : NMat n)
    (hC : C = symmetricInvSqrt qr svd rtol ign fun i j => (p.hess (fun k => some (x k)) i j).map fun h => -h)
    (L : Matrix (Obs y) (Obs y) ℝ) (l1 : ∀ i j : Obs y, C i.1 j.1 = some (L i j))
    (l4 : ∀ i, y i = none → C i i = none) (l5 : ∀ i j, i ≠ j → y i = none ∨ y j = none → C i j = some 0) :
    (∀ i : Obs y, (linearizeTaylor qr svd rtol ign p (fun k => some (x k))).1 i.1 =
        some (x i.1 + ((L * Lᵀ) *ᵥ fun k => G k.1) i)) ∧
      (∀ i, y i = none → (linearizeTaylor qr svd rtol ign p (fun k => some (x k))).1 i = some (x i)) ∧
      (∀ i j : Obs y, (linearizeTaylor qr svd rtol ign p (fun k => some (x k))).2 i.1 j.1 = some (L i j)) ∧
      (∀ i, y i = none → (linearizeTaylor qr svd rtol ign p (fun k => some (x k))).2 i i = none) ∧
      ∀ i j, i ≠ j → y i = none ∨ y j = none →
        (linearizeTaylor qr svd rtol ign p (fun k => some (x k))).2 i j = some 0 := by
  classical
  obtain ⟨X, hX⟩ : ∃ X : Fin n → Option ℝ, X = fun k => some (x k) := ⟨_, rfl⟩
  rw [← hX] at hg hC ⊢
  obtain ⟨Lt, hLt⟩ : ∃ Lt : NMat n, Lt = fun i j => if ((C i i).isNone && ign) || ((C j j).isNone && ign)
    then some 0 else C i j := ⟨_, rfl⟩
  have hlin : linearizeTaylor qr svd rtol ign p X =
      (fun i => do return (← X i) + (← nanMatVec (nanMatMul Lt fun i j => Lt j i) (p.grad X) i), C) := by
    rw [hLt, hC]; rfl
  obtain ⟨M, hM⟩ : ∃ M : Matrix (Fin n) (Fin n) ℝ, M = Matrix.of fun i j =>
    if h : (y i).isNone = false ∧ (y j).isNone = false then L ⟨i, h.1⟩ ⟨j, h.2⟩ else 0 := ⟨_, rfl⟩
  have hMo : ∀ i j : Obs y, M i.1 j.1 = L i j := fun i j => by
    rw [hM]; exact dif_pos ⟨i.2, j.2⟩
  have hMz : ∀ i j, y i = none ∨ y j = none → M i j = 0 := fun i j h => by
    rw [hM]
    refine dif_neg ?_
    rintro ⟨h1, h2⟩
    rcases h with h | h <;> simp [h] at h1 h2
  have hCd : ∀ i : Obs y, (C i.1 i.1).isNone = false := fun i => by rw [l1]; rfl
  have hLtM : ∀ i j, Lt i j = some (M i j) := by
    intro i j
    rw [hLt]
    simp only []
    by_cases hij : y i = none ∨ y j = none
    · rw [hMz i j hij, if_pos]
      have hi : ign = true := hign.resolve_right fun h => by
        rcases hij with h' | h'
        · exact h _ h'
        · exact h _ h'
      rcases hij with h | h
      · simp [l4 i h, hi]
      · simp [l4 j h, hi]
    · push Not at hij
      have e1 := isNone_false.mpr hij.1
      have e2 := isNone_false.mpr hij.2
      rw [if_neg (by simp [hCd ⟨i, e1⟩, hCd ⟨j, e2⟩])]
      exact (l1 ⟨i, e1⟩ ⟨j, e2⟩).trans (congrArg some (hMo ⟨i, e1⟩ ⟨j, e2⟩).symm)
  have hs : ∀ i, nanMatVec (nanMatMul Lt fun i j => Lt j i) (p.grad X) i = some (((M * Mᵀ) *ᵥ G) i) := by
    intro i
    refine nanSum_some fun k => ?_
    have : nanMatMul Lt (fun i j => Lt j i) i k = some ((M * Mᵀ) i k) := by
      rw [Matrix.mul_apply]
      exact nanSum_some fun l => by
        simp only []
        rw [hLtM, hLtM]; rfl
    rw [this, hg]; rfl
  have hMM : ∀ i j : Obs y, (M * Mᵀ) i.1 j.1 = (L * Lᵀ) i j := by
    intro i j
    rw [Matrix.mul_apply, Matrix.mul_apply, ← sum_obs y _ fun k hk => by rw [hMz i.1 k (Or.inr hk), zero_mul]]
    exact Finset.sum_congr rfl fun k _ => by rw [Matrix.transpose_apply, Matrix.transpose_apply, hMo, hMo]
  have hMMz : ∀ i j, y i = none ∨ y j = none → (M * Mᵀ) i j = 0 := by
    intro i j h
    rw [Matrix.mul_apply]
    refine Finset.sum_eq_zero fun k _ => ?_
    rcases h with h | h
    · rw [hMz i k (Or.inl h), zero_mul]
    · rw [Matrix.transpose_apply, hMz j k (Or.inl h), mul_zero]
  refine ⟨fun i => ?_, fun i hi => ?_, fun i j => ?_, fun i hi => ?_, fun i j hij h => ?_⟩ <;>
    rw [hlin]
  · simp only []
    rw [hs, hX]
    change some (x i.1 + _) = _
    congr 2
    rw [mulVec, dotProduct, ← sum_obs y _ fun k hk => by rw [hMMz i.1 k (Or.inr hk), zero_mul]]
    exact Finset.sum_congr rfl fun k _ => by rw [hMM]
  · simp only []
    rw [hs, hX]
    change some (x i + _) = _
    rw [mulVec, dotProduct, Finset.sum_eq_zero fun k _ => by rw [hMMz i k (Or.inl hi), zero_mul], add_zero]
  · exact l1 i j
  · exact l4 i hi
  · exact l5 i j hij h

/-- What `linearize_taylor` returns for given derivatives; `y` marks the dimensions the potential depends on. -/
theorem linearizeTaylor_eq (qr : QR) (svd : SVD) (rtol : ℝ) (hr : 0 ≤ rtol) (ign : Bool) (p : Potential n)
    (x : Fin n → ℝ) (y : Fin n → Option ℝ) (hign : ign = true ∨ ∀ i, y i ≠ none) (G : Fin n → ℝ)
    (P : Matrix (Obs y) (Obs y) ℝ) (hP : WellConditioned rtol P)
    (hg : ∀ i, p.grad (fun k => some (x k)) i = some (G i))
    (hh : ∀ i j : Obs y, p.hess (fun k => some (x k)) i.1 j.1 = some (-P i j))
    (hhm : ∀ i j, y i = none ∨ y j = none → p.hess (fun k => some (x k)) i j = some 0) :
    ∃ L : Matrix (Obs y) (Obs y) ℝ, (∀ i j : Obs y, i < j → L i j = 0) ∧ P * (L * Lᵀ) = 1 ∧
      (∀ i : Obs y, (linearizeTaylor qr svd rtol ign p (fun k => some (x k))).1 i.1 =
        some (x i.1 + ((L * Lᵀ) *ᵥ fun k => G k.1) i)) ∧
      (∀ i, y i = none → (linearizeTaylor qr svd rtol ign p (fun k => some (x k))).1 i = some (x i)) ∧
      (∀ i j : Obs y, (linearizeTaylor qr svd rtol ign p (fun k => some (x k))).2 i.1 j.1 = some (L i j)) ∧
      (∀ i, y i = none → (linearizeTaylor qr svd rtol ign p (fun k => some (x k))).2 i i = none) ∧
      ∀ i j, i ≠ j → y i = none ∨ y j = none →
        (linearizeTaylor qr svd rtol ign p (fun k => some (x k))).2 i j = some 0 := by
  classical
  obtain ⟨A, hA⟩ : ∃ A : NMat n, A = fun i j => (p.hess (fun k => some (x k)) i j).map fun h => -h := ⟨_, rfl⟩
  obtain ⟨L, l1, l2, l3, l4, l5⟩ := symInv_obs qr svd rtol hr ign y hign A P hP
    (fun i j => by rw [hA]; simp only []; rw [hh, Option.map_some, neg_neg])
    fun i hi => Or.inr ⟨fun r => by rw [hA]; simp only []; rw [hhm r i (Or.inr hi)]; simp,
      fun r => by rw [hA]; simp only []; rw [hhm i r (Or.inl hi)]; simp⟩
  exact ⟨L, l2, l3, linearizeTaylor_of_factor qr svd rtol ign p x y hign G hg _ (by rw [hA]) L l1 l4 l5⟩

/-- **C36** (exactness). If the log potential is, up to a constant, the Gaussian log density with mean `m` and
covariance `P` of the components of the state marked by `y`, then at every point the result is `m` and a lower
triangular factor of `P`. The other components (allowed only with `ignore_nan_dims`) keep the linearisation
point as mean and are marked by NaN on the diagonal of the factor. -/
theorem linearize_taylor_exact (qr : QR) (svd : SVD) (rtol : ℝ) (hr : 0 ≤ rtol) (ign : Bool) (p : Potential n)
    (hAD : p.AD) (x : Fin n → ℝ) (y : Fin n → Option ℝ) (hign : ign = true ∨ ∀ i, y i ≠ none)
    (m : Obs y → ℝ) (P : Matrix (Obs y) (Obs y) ℝ) (hP : WellConditioned rtol P) (c : ℝ)
    (hp : ∀ x, p.value x = gaussLogDensity m P (fun i => x i.1) + c) :
    ∃ L : Matrix (Obs y) (Obs y) ℝ, (∀ i j : Obs y, i < j → L i j = 0) ∧ L * Lᵀ = P ∧
      (∀ i : Obs y, (linearizeTaylor qr svd rtol ign p (fun k => some (x k))).1 i.1 = some (m i)) ∧
      (∀ i, y i = none → (linearizeTaylor qr svd rtol ign p (fun k => some (x k))).1 i = some (x i)) ∧
      (∀ i j : Obs y, (linearizeTaylor qr svd rtol ign p (fun k => some (x k))).2 i.1 j.1 = some (L i j)) ∧
      (∀ i, y i = none → (linearizeTaylor qr svd rtol ign p (fun k => some (x k))).2 i i = none) ∧
      ∀ i j, i ≠ j → y i = none ∨ y j = none →
        (linearizeTaylor qr svd rtol ign p (fun k => some (x k))).2 i j = some 0 := by
  classical
  have hdet := hP.det_ne_zero
  have hPi := hP.inv
  obtain ⟨Q, hQ⟩ : ∃ Q : Matrix (Fin n) (Fin n) ℝ, Q = Matrix.of fun i j =>
    if h : (y i).isNone = false ∧ (y j).isNone = false then P⁻¹ ⟨i, h.1⟩ ⟨j, h.2⟩ else 0 := ⟨_, rfl⟩
  have hQo : ∀ i j : Obs y, Q i.1 j.1 = P⁻¹ i j := fun i j => by
    rw [hQ]; exact dif_pos ⟨i.2, j.2⟩
  have hQz : ∀ i j, y i = none ∨ y j = none → Q i j = 0 := fun i j h => by
    rw [hQ]
    refine dif_neg ?_
    rintro ⟨h1, h2⟩
    rcases h with h | h <;> simp [h] at h1 h2
  have hQs : Q.IsSymm := by
    ext i j
    rw [Matrix.transpose_apply]
    by_cases hij : y i = none ∨ y j = none
    · rw [hQz _ _ hij, hQz _ _ hij.symm]
    · push Not at hij
      have := hPi.1.apply ⟨i, isNone_false.mpr hij.1⟩ ⟨j, isNone_false.mpr hij.2⟩
      rw [← hQo, ← hQo] at this
      exact this
  obtain ⟨μ, hμ⟩ : ∃ μ : Fin n → ℝ, μ = fun i => if h : (y i).isNone = false then m ⟨i, h⟩ else 0 := ⟨_, rfl⟩
  have hμo : ∀ i : Obs y, μ i.1 = m i := fun i => by rw [hμ]; exact dif_pos i.2
  have hQv : ∀ (v : Fin n → ℝ) (i : Obs y), (Q *ᵥ v) i.1 = (P⁻¹ *ᵥ fun k => v k.1) i := fun v i => by
    rw [mulVec, dotProduct, ← sum_obs y _ fun k hk => by rw [hQz i.1 k (Or.inr hk), zero_mul]]
    exact Finset.sum_congr rfl fun k _ => by rw [hQo]
  obtain ⟨c', hc'⟩ := gaussLogDensity_quadForm (0 : Matrix (Obs y) (Fin 0) ℝ) m P
  have hval : p.value = quadForm (0 : Matrix (Fin n) (Fin 0) ℝ) μ Q (c' + c) 0 := by
    funext z
    have h0 := hc' 0 fun i => z i.1
    rw [Matrix.zero_mulVec, zero_add] at h0
    rw [hp, h0, quadForm, quadForm, Matrix.zero_mulVec, zero_add, Matrix.zero_mulVec, zero_add, add_assoc]
    congr 2
    rw [dotProduct, dotProduct, ← sum_obs y (fun i => (z - μ) i * (Q *ᵥ (z - μ)) i) fun k hk => by
      rw [mulVec, dotProduct, Finset.sum_eq_zero fun l _ => by rw [hQz k l (Or.inl hk), zero_mul], mul_zero]]
    refine Finset.sum_congr rfl fun i _ => ?_
    rw [hQv]
    have : (fun k : Obs y => (z - μ) k.1) = (fun i => z i.1) - m := by
      funext k; simp only [Pi.sub_apply]; rw [hμo]
    rw [this, ← this]
  have hcd : ContDiff ℝ 2 p.value := by
    rw [hval]
    have := contDiff_quadForm (0 : Matrix (Fin n) (Fin 0) ℝ) μ Q (c' + c)
    exact this.comp ((contDiff_const (c := (0 : Fin 0 → ℝ))).prodMk contDiff_id)
  obtain ⟨L, l1, l2, l3, l4, l5, l6, l7⟩ := linearizeTaylor_eq qr svd rtol hr ign p x y hign
    (fun i => -(Q *ᵥ (x - μ)) i) P⁻¹ hPi
    (fun i => by rw [hAD.grad x hcd, hval, quadForm_grad hQs, Matrix.zero_mulVec, zero_add])
    (fun i j => by rw [hAD.hess x hcd, hval, quadForm_hess hQs, hQo])
    (fun i j h => by rw [hAD.hess x hcd, hval, quadForm_hess hQs, hQz i j h, neg_zero])
  have hLL : L * Lᵀ = P := by
    rw [← Matrix.inv_eq_right_inv l2, Matrix.nonsing_inv_nonsing_inv _ hdet.isUnit]
  refine ⟨L, l1, hLL, fun i => ?_, l4, l5, l6, l7⟩
  rw [l3, hLL]
  have : (fun k : Obs y => -(Q *ᵥ (x - μ)) k.1) = -(P⁻¹ *ᵥ fun k : Obs y => (x - μ) k.1) := by
    funext k; rw [hQv]; rfl
  rw [this, Matrix.mulVec_neg, Matrix.mulVec_mulVec, Matrix.mul_nonsing_inv _ hdet.isUnit, Matrix.one_mulVec]
  congr 1
  simp only [Pi.neg_apply, Pi.sub_apply]
  rw [hμo]; ring

/-- **C36** (general potentials). For a twice continuously differentiable potential with a well-conditioned
negative Hessian at the point, the Gaussian returned has there the gradient and Hessian of the potential. -/
theorem linearize_taylor_matches (qr : QR) (svd : SVD) (rtol : ℝ) (hr : 0 ≤ rtol) (p : Potential n)
    (hAD : p.AD) (x : Fin n → ℝ) (hcd : ContDiff ℝ 2 p.value)
    (hP : WellConditioned rtol (Matrix.of fun i j : Fin n =>
      -lineDeriv ℝ (fun z => lineDeriv ℝ p.value z (Pi.single i 1)) x (Pi.single j 1))) (ign : Bool) :
    ∃ (m : Fin n → ℝ) (L : Matrix (Fin n) (Fin n) ℝ),
      (∀ i, (linearizeTaylor qr svd rtol ign p (fun k => some (x k))).1 i = some (m i)) ∧
      (∀ i j, (linearizeTaylor qr svd rtol ign p (fun k => some (x k))).2 i j = some (L i j)) ∧
      (∀ i, lineDeriv ℝ (gaussLogDensity m (L * Lᵀ)) x (Pi.single i 1) = lineDeriv ℝ p.value x (Pi.single i 1)) ∧
      ∀ i j, lineDeriv ℝ (fun z => lineDeriv ℝ (gaussLogDensity m (L * Lᵀ)) z (Pi.single i 1)) x (Pi.single j 1) =
        lineDeriv ℝ (fun z => lineDeriv ℝ p.value z (Pi.single i 1)) x (Pi.single j 1) := by
  obtain ⟨P, hPd⟩ : ∃ P : Matrix (Fin n) (Fin n) ℝ, P = Matrix.of fun i j : Fin n =>
      -lineDeriv ℝ (fun z => lineDeriv ℝ p.value z (Pi.single i 1)) x (Pi.single j 1) := ⟨_, rfl⟩
  obtain ⟨G, hG⟩ : ∃ G : Fin n → ℝ, G = fun i => lineDeriv ℝ p.value x (Pi.single i 1) := ⟨_, rfl⟩
  rw [← hPd] at hP
  let y : Fin n → Option ℝ := fun _ => some 0
  let e : Obs y ≃ Fin n := ⟨Subtype.val, fun i => ⟨i, rfl⟩, fun _ => rfl, fun _ => rfl⟩
  obtain ⟨L, -, l2, l3, -, l5, -, -⟩ := linearizeTaylor_eq qr svd rtol hr ign p x y
    (Or.inr fun i => by simp [y]) G _ (hP.obs y) (fun i => by rw [hAD.grad x hcd, hG])
    (fun i j => by rw [hAD.hess x hcd, Matrix.submatrix_apply, hPd, Matrix.of_apply, neg_neg])
    (fun i j h => by simp [y] at h)
  obtain ⟨L', hL'⟩ : ∃ L' : Matrix (Fin n) (Fin n) ℝ, L' = L.submatrix e.symm e.symm := ⟨_, rfl⟩
  have hLL : L' * L'ᵀ = (L * Lᵀ).submatrix e.symm e.symm := by
    rw [hL', Matrix.transpose_submatrix, Matrix.submatrix_mul_equiv]
  have hPL : P * (L' * L'ᵀ) = 1 := by
    have : P = (P.submatrix Subtype.val Subtype.val : Matrix (Obs y) (Obs y) ℝ).submatrix e.symm e.symm := rfl
    rw [hLL, this, Matrix.submatrix_mul_equiv, l2, Matrix.submatrix_one_equiv]
  have hinv : (L' * L'ᵀ)⁻¹ = P := Matrix.inv_eq_left_inv hPL
  have hv : ∀ i, ((L * Lᵀ) *ᵥ fun k : Obs y => G k.1) (e.symm i) = ((L' * L'ᵀ) *ᵥ G) i := by
    intro i
    rw [hLL]
    exact Fintype.sum_equiv e _ _ fun _ => rfl
  obtain ⟨c, hc⟩ := gaussLogDensity_quadForm (0 : Matrix (Fin n) (Fin 0) ℝ) (x + (L' * L'ᵀ) *ᵥ G) (L' * L'ᵀ)
  have hc' : gaussLogDensity (x + (L' * L'ᵀ) *ᵥ G) (L' * L'ᵀ) =
      quadForm (0 : Matrix (Fin n) (Fin 0) ℝ) (x + (L' * L'ᵀ) *ᵥ G) P c 0 := by
    funext z
    have h0 := hc 0 z
    rw [Matrix.zero_mulVec, zero_add, hinv] at h0
    exact h0
  refine ⟨x + (L' * L'ᵀ) *ᵥ G, L', fun i => ?_, fun i j => ?_, fun i => ?_, fun i j => ?_⟩
  · rw [Pi.add_apply, ← hv]; exact l3 (e.symm i)
  · rw [hL']; exact l5 (e.symm i) (e.symm j)
  · rw [hc', quadForm_grad hP.1, Matrix.zero_mulVec, zero_add, sub_add_cancel_left, Matrix.mulVec_neg,
      Matrix.mulVec_mulVec, hPL, Matrix.one_mulVec, Pi.neg_apply, neg_neg, hG]
  · rw [hc', quadForm_hess hP.1, hPd, Matrix.of_apply, neg_neg]

/-- Every function is the value of a program for which the contract holds. -/
theorem exists_potential (v : (Fin n → ℝ) → ℝ) : ∃ p : Potential n, p.value = v ∧ p.AD :=
  ⟨{ value := v
     grad := fun X i => some (lineDeriv ℝ v (fun k => (X k).getD 0) (Pi.single i 1))
     hess := fun X i j => some (lineDeriv ℝ (fun z => lineDeriv ℝ v z (Pi.single i 1))
       (fun k => (X k).getD 0) (Pi.single j 1)) }, rfl, fun _ _ _ => rfl, fun _ _ _ _ => rfl⟩

/-- Non-vacuity for C36: a correlated two-dimensional Gaussian potential, of full dimension or of one component
of a two-dimensional state. -/
example (y : Fin 2 → Option ℝ) (m : Fin 2 → ℝ) : ∃ p : Potential 2, p.AD ∧
    WellConditioned (1 / 10) (!![2, 1; 1, 2].submatrix Subtype.val Subtype.val : Matrix (Obs y) (Obs y) ℝ) ∧
    ∀ x, p.value x = gaussLogDensity (fun i : Obs y => m i.1) (!![2, 1; 1, 2].submatrix Subtype.val Subtype.val)
      (fun i => x i.1) + 3 := by
  obtain ⟨p, hp, hAD⟩ := exists_potential (n := 2) fun x => gaussLogDensity (fun i : Obs y => m i.1)
    (!![2, 1; 1, 2].submatrix Subtype.val Subtype.val) (fun i => x i.1) + 3
  refine ⟨p, hAD, WellConditioned.obs ⟨?_, 1, 3, one_pos, by norm_num, fun x => ?_⟩ _, fun x => by rw [hp]⟩
  · ext i j; fin_cases i <;> fin_cases j <;> rfl
  · simp [dotProduct, mulVec, Fin.sum_univ_two]
    constructor <;> nlinarith [sq_nonneg (x 0 + x 1), sq_nonneg (x 0 - x 1)]

end

end Cuthbert.Linearize
