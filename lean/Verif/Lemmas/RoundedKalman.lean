import Verif.Spec.RoundedKalman
import Verif.Lemmas.Linalg
import Mathlib.Analysis.SpecialFunctions.Trigonometric.DerivHyp
import Mathlib.Algebra.QuadraticDiscriminant
import Mathlib.Analysis.InnerProductSpace.PiL2

/-!
# Covariance factors that are close in every direction
-/

namespace Cuthbert.Kalman
open Matrix Cuthbert Spec

variable {n k l a b c d nx ny : ℕ}

theorem dot_self_nonneg (v : Fin n → ℝ) : 0 ≤ v ⬝ᵥ v := Finset.sum_nonneg fun _ _ => mul_self_nonneg _

theorem varAlong_nonneg (L : Matrix (Fin n) (Fin k) ℝ) (x : Fin n → ℝ) : 0 ≤ varAlong L x := dot_self_nonneg _

theorem varAlong_gram (L : Matrix (Fin n) (Fin k) ℝ) (x : Fin n → ℝ) : varAlong L x = x ⬝ᵥ (L * Lᵀ) *ᵥ x := by
  rw [varAlong, ← Matrix.mulVec_mulVec, dotProduct_mulVec, Matrix.mulVec_transpose]

theorem spreadNear_of_gram {A : Matrix (Fin n) (Fin k) ℝ} {B : Matrix (Fin n) (Fin l) ℝ} (h : A * Aᵀ = B * Bᵀ) {η : ℝ}
    (hη : 0 ≤ η) : SpreadNear η A B := by
  intro x
  have e : varAlong A x = varAlong B x := by rw [varAlong_gram, varAlong_gram, h]
  have h1 : 1 ≤ Real.exp η := Real.one_le_exp hη
  have h2 := varAlong_nonneg B x
  rw [e]
  constructor <;> nlinarith

theorem _root_.Cuthbert.Spec.SpreadNear.symm {A : Matrix (Fin n) (Fin k) ℝ} {B : Matrix (Fin n) (Fin l) ℝ} {η : ℝ}
    (h : SpreadNear η A B) : SpreadNear η B A := fun x => ⟨(h x).2, (h x).1⟩

theorem _root_.Cuthbert.Spec.SpreadNear.trans {m : ℕ} {A : Matrix (Fin n) (Fin k) ℝ} {B : Matrix (Fin n) (Fin l) ℝ}
    {C : Matrix (Fin n) (Fin m) ℝ} {η ζ : ℝ} (h : SpreadNear η A B) (h' : SpreadNear ζ B C) : SpreadNear (η + ζ) A C := by
  intro x
  rw [Real.exp_add]
  have p1 := Real.exp_pos η
  have p2 := Real.exp_pos ζ
  constructor
  · calc varAlong C x ≤ Real.exp ζ * varAlong B x := (h' x).1
      _ ≤ Real.exp ζ * (Real.exp η * varAlong A x) := by gcongr; exact (h x).1
      _ = _ := by ring
  · calc varAlong A x ≤ Real.exp η * varAlong B x := (h x).2
      _ ≤ Real.exp η * (Real.exp ζ * varAlong C x) := by gcongr; exact (h' x).2
      _ = _ := by ring

theorem _root_.Cuthbert.Spec.SpreadNear.mono {A : Matrix (Fin n) (Fin k) ℝ} {B : Matrix (Fin n) (Fin l) ℝ} {η ζ : ℝ}
    (h : SpreadNear η A B) (hz : η ≤ ζ) : SpreadNear ζ A B := by
  intro x
  have e := Real.exp_le_exp.mpr hz
  exact ⟨(h x).1.trans (mul_le_mul_of_nonneg_right e (varAlong_nonneg _ _)),
    (h x).2.trans (mul_le_mul_of_nonneg_right e (varAlong_nonneg _ _))⟩

theorem varAlong_mul (F : Matrix (Fin n) (Fin k) ℝ) (L : Matrix (Fin k) (Fin l) ℝ) (x : Fin n → ℝ) :
    varAlong (F * L) x = varAlong L (x ᵥ* F) := by
  rw [varAlong, varAlong, Matrix.vecMul_vecMul]

theorem varAlong_hcat (A : Matrix (Fin a) (Fin c) ℝ) (B : Matrix (Fin a) (Fin d) ℝ) (x : Fin a → ℝ) :
    varAlong (hcat A B) x = varAlong A x + varAlong B x := by
  rw [varAlong_gram, hcat_gram, Matrix.add_mulVec, dotProduct_add, ← varAlong_gram, ← varAlong_gram]

/-- `(a, b)` as one vector. -/
theorem append_vecMul_block (A : Matrix (Fin a) (Fin c) ℝ) (B : Matrix (Fin a) (Fin d) ℝ)
    (C : Matrix (Fin b) (Fin c) ℝ) (D : Matrix (Fin b) (Fin d) ℝ) (x : Fin a → ℝ) (z : Fin b → ℝ) :
    Fin.append x z ᵥ* block A B C D = Fin.append (x ᵥ* A + z ᵥ* C) (x ᵥ* B + z ᵥ* D) := by
  funext j
  refine Fin.addCases (fun j => ?_) (fun j => ?_) j
  · simp [Matrix.vecMul, dotProduct, Fin.sum_univ_add, block_castAdd_castAdd, block_natAdd_castAdd]
  · simp [Matrix.vecMul, dotProduct, Fin.sum_univ_add, block_castAdd_natAdd, block_natAdd_natAdd]

theorem append_dot (x x' : Fin a → ℝ) (z z' : Fin b → ℝ) :
    Fin.append x z ⬝ᵥ Fin.append x' z' = x ⬝ᵥ x' + z ⬝ᵥ z' := by
  simp [dotProduct, Fin.sum_univ_add]

theorem varAlong_block (A : Matrix (Fin a) (Fin c) ℝ) (B : Matrix (Fin a) (Fin d) ℝ)
    (C : Matrix (Fin b) (Fin c) ℝ) (D : Matrix (Fin b) (Fin d) ℝ) (x : Fin a → ℝ) (z : Fin b → ℝ) :
    varAlong (block A B C D) (Fin.append x z) =
      (x ᵥ* A + z ᵥ* C) ⬝ᵥ (x ᵥ* A + z ᵥ* C) + (x ᵥ* B + z ᵥ* D) ⬝ᵥ (x ᵥ* B + z ᵥ* D) := by
  rw [varAlong, append_vecMul_block, append_dot]

/-- The joint factor of observation and state. -/
theorem varAlong_joint (H : Matrix (Fin ny) (Fin nx) ℝ) (L : Matrix (Fin nx) (Fin nx) ℝ) (R : Matrix (Fin ny) (Fin ny) ℝ)
    (x : Fin ny → ℝ) (z : Fin nx → ℝ) :
    varAlong (block (H * L) R L 0) (Fin.append x z) = varAlong L (x ᵥ* H + z) + varAlong R x := by
  rw [varAlong_block, varAlong, varAlong, Matrix.vecMul_zero, add_zero, Matrix.add_vecMul, Matrix.vecMul_vecMul]

theorem SpreadNear.hcat {A A' : Matrix (Fin nx) (Fin nx) ℝ} {η : ℝ} (hη : 0 ≤ η) (h : SpreadNear η A A')
    (F Q : Matrix (Fin nx) (Fin nx) ℝ) : SpreadNear η (hcat (F * A) Q) (hcat (F * A') Q) := by
  intro x
  have h1 : 1 ≤ Real.exp η := Real.one_le_exp hη
  have h2 := varAlong_nonneg Q x
  obtain ⟨p, q⟩ := h (x ᵥ* F)
  rw [varAlong_hcat, varAlong_hcat, varAlong_mul, varAlong_mul]
  constructor <;> nlinarith

theorem append_split (x : Fin (a + b) → ℝ) : ∃ y z, x = Fin.append (m := a) (n := b) y z :=
  ⟨fun i => x (Fin.castAdd b i), fun i => x (Fin.natAdd a i), (Fin.append_castAdd_natAdd (f := x)).symm⟩

theorem SpreadNear.joint {L L' : Matrix (Fin nx) (Fin nx) ℝ} {R R' : Matrix (Fin ny) (Fin ny) ℝ} {η : ℝ}
    (h : SpreadNear η L L') (hR : SpreadNear η R R') (H : Matrix (Fin ny) (Fin nx) ℝ) :
    SpreadNear η (block (H * L) R L 0) (block (H * L') R' L' 0) := by
  intro x
  obtain ⟨y, z, rfl⟩ := append_split x
  rw [varAlong_joint, varAlong_joint]
  obtain ⟨p, q⟩ := h (y ᵥ* H + z)
  obtain ⟨p', q'⟩ := hR y
  constructor <;> nlinarith

/-! ## The triangular factor of the joint covariance -/

section blocks

variable {I I' : Matrix (Fin ny) (Fin ny) ℝ} {G G' : Matrix (Fin nx) (Fin ny) ℝ} {C C' : Matrix (Fin nx) (Fin nx) ℝ} {η : ℝ}

theorem varAlong_lower (x : Fin ny → ℝ) (z : Fin nx → ℝ) : varAlong (block I 0 G C) (Fin.append x z) =
    (x ᵥ* I + z ᵥ* G) ⬝ᵥ (x ᵥ* I + z ᵥ* G) + varAlong C z := by
  rw [varAlong_block, Matrix.vecMul_zero, zero_add, varAlong]

theorem varAlong_top (x : Fin ny → ℝ) : varAlong (block I 0 G C) (Fin.append x 0) = varAlong I x := by
  rw [varAlong_lower, Matrix.zero_vecMul, add_zero, varAlong, varAlong, Matrix.zero_vecMul]; simp

theorem spread_top (h : SpreadNear η (block I 0 G C) (block I' 0 G' C')) : SpreadNear η I I' := by
  intro x
  have := h (Fin.append x 0)
  rwa [varAlong_top, varAlong_top] at this

/-- The combination of `y` and `x` that is uncorrelated with `y`. -/
theorem varAlong_resid (hI : I.det ≠ 0) (w : Fin nx → ℝ) :
    varAlong (block I 0 G C) (Fin.append (-(w ᵥ* (G * I⁻¹))) w) = varAlong C w := by
  have hu : IsUnit I.det := isUnit_iff_ne_zero.mpr hI
  rw [varAlong_lower]
  have : -(w ᵥ* (G * I⁻¹)) ᵥ* I + w ᵥ* G = 0 := by
    rw [Matrix.neg_vecMul, Matrix.vecMul_vecMul, Matrix.mul_assoc, Matrix.nonsing_inv_mul _ hu, Matrix.mul_one,
      neg_add_cancel]
  rw [this]; simp

theorem varAlong_bottom_le (x : Fin ny → ℝ) (w : Fin nx → ℝ) :
    varAlong C w ≤ varAlong (block I 0 G C) (Fin.append x w) := by
  rw [varAlong_lower]
  linarith [dot_self_nonneg (x ᵥ* I + w ᵥ* G)]

theorem spread_det (h : SpreadNear η I I') (hI : I.det ≠ 0) : I'.det ≠ 0 := by
  intro h0
  obtain ⟨v, hv, hz⟩ := Matrix.exists_vecMul_eq_zero_iff.mpr h0
  have h1 := (h v).2
  rw [varAlong, varAlong, hz] at h1
  simp only [dotProduct_zero, mul_zero] at h1
  have h2 : v ᵥ* I = 0 := dotProduct_self_eq_zero.mp (le_antisymm h1 (dot_self_nonneg _))
  exact hI (Matrix.exists_vecMul_eq_zero_iff.mp ⟨v, hv, h2⟩)

theorem spread_bottom (h : SpreadNear η (block I 0 G C) (block I' 0 G' C')) (hI : I.det ≠ 0) : SpreadNear η C C' := by
  have hI' := spread_det (spread_top h) hI
  intro w
  constructor
  · calc varAlong C' w ≤ varAlong (block I' 0 G' C') (Fin.append (-(w ᵥ* (G * I⁻¹))) w) := varAlong_bottom_le _ _
      _ ≤ _ := (h _).1
      _ = _ := by rw [varAlong_resid hI]
  · calc varAlong C w ≤ varAlong (block I 0 G C) (Fin.append (-(w ᵥ* (G' * I'⁻¹))) w) := varAlong_bottom_le _ _
      _ ≤ _ := (h _).2
      _ = _ := by rw [varAlong_resid hI']

theorem varAlong_add_smul (L : Matrix (Fin n) (Fin k) ℝ) (x y : Fin n → ℝ) (s : ℝ) :
    varAlong L (x + s • y) = varAlong L x + 2 * s * ((x ᵥ* L) ⬝ᵥ (y ᵥ* L)) + s ^ 2 * varAlong L y := by
  simp only [varAlong, Matrix.add_vecMul, Matrix.smul_vecMul, add_dotProduct, dotProduct_add, smul_dotProduct,
    dotProduct_smul, smul_eq_mul]
  rw [dotProduct_comm (y ᵥ* L) (x ᵥ* L)]
  ring

/-- Two directions that are uncorrelated under one covariance are almost uncorrelated under a close one. -/
theorem almost_uncorrelated {A : Matrix (Fin n) (Fin k) ℝ} {B : Matrix (Fin n) (Fin l) ℝ} (h : SpreadNear η A B)
    (x y : Fin n → ℝ) (h0 : (x ᵥ* A) ⬝ᵥ (y ᵥ* A) = 0) :
    ((x ᵥ* B) ⬝ᵥ (y ᵥ* B)) ^ 2 ≤ Real.sinh η ^ 2 * (varAlong A x * varAlong A y) := by
  obtain ⟨β, hβ⟩ : ∃ β, β = (x ᵥ* B) ⬝ᵥ (y ᵥ* B) := ⟨_, rfl⟩
  have hlow : ∀ z, Real.exp (-η) * varAlong A z ≤ varAlong B z := by
    intro z
    have := (h z).2
    rw [Real.exp_neg, inv_mul_le_iff₀ (Real.exp_pos _)]
    exact this
  have key : ∀ s : ℝ, 0 ≤ (Real.sinh η * varAlong A y) * (s * s) + (-2 * β) * s + Real.sinh η * varAlong A x := by
    intro s
    have h1 := (h (x + s • y)).1
    have h2 := hlow (x + (-s) • y)
    rw [varAlong_add_smul, varAlong_add_smul, h0, ← hβ] at h1 h2
    have hs : Real.sinh η = (Real.exp η - Real.exp (-η)) / 2 := Real.sinh_eq η
    rw [hs]
    nlinarith
  have hd := discrim_le_zero key
  rw [discrim] at hd
  rw [← hβ]
  nlinarith

/-- The error of the correction by the innovation. -/
theorem gain_error (h : SpreadNear η (block I 0 G C) (block I' 0 G' C')) (hI : I.det ≠ 0) (u : Fin ny → ℝ)
    (w : Fin nx → ℝ) : (w ⬝ᵥ (G' *ᵥ u - (G * I⁻¹) *ᵥ (I' *ᵥ u))) ^ 2 ≤
      Real.sinh η ^ 2 * Real.exp η * ((u ⬝ᵥ u) * varAlong C w) := by
  have hI' := spread_det (spread_top h) hI
  have hu : IsUnit I.det := isUnit_iff_ne_zero.mpr hI
  have hu' : IsUnit I'.det := isUnit_iff_ne_zero.mpr hI'
  obtain ⟨x, hx⟩ : ∃ x : Fin (ny + nx) → ℝ, x = Fin.append (-(w ᵥ* (G * I⁻¹))) w := ⟨_, rfl⟩
  obtain ⟨y, hy⟩ : ∃ y : Fin (ny + nx) → ℝ, y = Fin.append (u ᵥ* I'⁻¹) 0 := ⟨_, rfl⟩
  have ex : x ᵥ* block I 0 G C = Fin.append 0 (w ᵥ* C) := by
    rw [hx, append_vecMul_block, Matrix.neg_vecMul, Matrix.vecMul_vecMul, Matrix.mul_assoc,
      Matrix.nonsing_inv_mul _ hu, Matrix.mul_one, neg_add_cancel, Matrix.vecMul_zero, zero_add]
  have ey : y ᵥ* block I 0 G C = Fin.append (u ᵥ* I'⁻¹ ᵥ* I) 0 := by
    rw [hy, append_vecMul_block, Matrix.zero_vecMul, Matrix.zero_vecMul, Matrix.vecMul_zero, add_zero, add_zero]
  have ey' : y ᵥ* block I' 0 G' C' = Fin.append u 0 := by
    rw [hy, append_vecMul_block, Matrix.zero_vecMul, Matrix.zero_vecMul, Matrix.vecMul_zero, add_zero, add_zero,
      Matrix.vecMul_vecMul, Matrix.nonsing_inv_mul _ hu', Matrix.vecMul_one]
  have hex : varAlong (block I 0 G C) x = varAlong C w := by rw [hx, varAlong_resid hI]
  have hey : varAlong (block I 0 G C) y ≤ Real.exp η * (u ⬝ᵥ u) := by
    refine (h y).2.trans (le_of_eq ?_)
    rw [varAlong, ey', append_dot]; simp
  have hdot : (x ᵥ* block I' 0 G' C') ⬝ᵥ (y ᵥ* block I' 0 G' C') = w ⬝ᵥ (G' *ᵥ u - (G * I⁻¹) *ᵥ (I' *ᵥ u)) := by
    rw [ey', hx, append_vecMul_block, append_dot, dotProduct_zero, add_zero, add_dotProduct, dotProduct_sub,
      Matrix.neg_vecMul, neg_dotProduct, ← dotProduct_mulVec, ← dotProduct_mulVec, ← dotProduct_mulVec]
    ring
  have h0 : (x ᵥ* block I 0 G C) ⬝ᵥ (y ᵥ* block I 0 G C) = 0 := by rw [ex, ey, append_dot]; simp
  have hfin := almost_uncorrelated h x y h0
  rw [hdot, hex] at hfin
  refine hfin.trans ?_
  have := mul_le_mul_of_nonneg_left hey (varAlong_nonneg C w)
  have := mul_le_mul_of_nonneg_left this (sq_nonneg (Real.sinh η))
  refine this.trans (le_of_eq (by ring))

end blocks

/-! ## The diagonal of a triangular factor -/

/-- The least variance of a combination that contains component `i` once and no later one. -/
theorem diag_sq_le {T : Matrix (Fin n) (Fin n) ℝ} (hT : IsLower T) (i : Fin n) (x : Fin n → ℝ) (hi : x i = 1)
    (hx : ∀ j, i < j → x j = 0) : T i i ^ 2 ≤ varAlong T x := by
  have e : (x ᵥ* T) i = T i i := by
    rw [Matrix.vecMul, dotProduct, Finset.sum_eq_single i]
    · rw [hi, one_mul]
    · intro j _ hj
      rcases lt_or_gt_of_ne hj with h | h
      · rw [hT j i h, mul_zero]
      · rw [hx j h, zero_mul]
    · simp
  have := Finset.single_le_sum (f := fun j => (x ᵥ* T) j * (x ᵥ* T) j) (fun j _ => mul_self_nonneg _) (Finset.mem_univ i)
  rw [varAlong, dotProduct]
  refine le_trans (le_of_eq ?_) this
  simp only [e]; ring

theorem diag_sq_attained {T : Matrix (Fin n) (Fin n) ℝ} (hT : IsLower T) (hd : T.det ≠ 0) (i : Fin n) :
    ∃ x : Fin n → ℝ, x i = 1 ∧ (∀ j, i < j → x j = 0) ∧ varAlong T x = T i i ^ 2 := by
  have hu : IsUnit T.det := isUnit_iff_ne_zero.mpr hd
  have : Invertible T := Matrix.invertibleOfIsUnitDet T hu
  have hinv : ∀ p q : Fin n, p < q → T⁻¹ p q = 0 := by
    have hb : T.BlockTriangular (OrderDual.toDual : Fin n → (Fin n)ᵒᵈ) := fun p q hpq => hT p q hpq
    exact fun p q hpq => Matrix.blockTriangular_inv_of_blockTriangular hb hpq
  have hval : ∀ j, (T i i • (Pi.single i 1 ᵥ* T⁻¹)) j = T i i * T⁻¹ i j := by
    intro j
    rw [Pi.smul_apply, smul_eq_mul, Matrix.single_one_vecMul]
    rfl
  refine ⟨T i i • (Pi.single i 1 ᵥ* T⁻¹), ?_, ?_, ?_⟩
  · rw [hval]
    have h1 : (T * T⁻¹) i i = 1 := by rw [Matrix.mul_nonsing_inv _ hu, Matrix.one_apply_eq]
    rw [Matrix.mul_apply, Finset.sum_eq_single i] at h1
    · exact h1
    · intro j _ hj
      rcases lt_or_gt_of_ne hj with h | h
      · rw [hinv j i h, mul_zero]
      · rw [hT i j h, zero_mul]
    · simp
  · intro j hj
    rw [hval, hinv i j hj, mul_zero]
  · rw [varAlong, Matrix.smul_vecMul, Matrix.vecMul_vecMul, Matrix.nonsing_inv_mul _ hu, Matrix.vecMul_one]
    simp [sq]

theorem diag_near {T T' : Matrix (Fin n) (Fin n) ℝ} (hT : IsLower T) (hT' : IsLower T') (hd : T.det ≠ 0) {η : ℝ}
    (h : SpreadNear η T T') (i : Fin n) : T' i i ^ 2 ≤ Real.exp η * T i i ^ 2 := by
  obtain ⟨x, h1, h2, h3⟩ := diag_sq_attained hT hd i
  rw [← h3]
  exact (diag_sq_le hT' i x h1 h2).trans (h x).1

/-! ## Lengths -/

theorem size_eq_norm (v : Fin n → ℝ) : size v = ‖(WithLp.toLp 2 v : EuclideanSpace ℝ (Fin n))‖ := by
  rw [size, EuclideanSpace.norm_eq]
  congr 1
  exact Finset.sum_congr rfl fun i _ => by simp [sq]

theorem size_nonneg (v : Fin n → ℝ) : 0 ≤ size v := Real.sqrt_nonneg _

theorem size_sq (v : Fin n → ℝ) : size v ^ 2 = v ⬝ᵥ v := Real.sq_sqrt (dot_self_nonneg v)

theorem size_add_le (v w : Fin n → ℝ) : size (v + w) ≤ size v + size w := by
  rw [size_eq_norm, size_eq_norm, size_eq_norm]
  exact norm_add_le _ _

theorem size_neg (v : Fin n → ℝ) : size (-v) = size v := by simp [size]

theorem abs_dot_le (v w : Fin n → ℝ) : |v ⬝ᵥ w| ≤ size v * size w := by
  rw [size, size, ← Real.sqrt_mul (dot_self_nonneg v)]
  refine Real.abs_le_sqrt ?_
  have := Finset.sum_mul_sq_le_sq_mul_sq Finset.univ v w
  simpa [dotProduct, sq] using this

/-- A matrix and its transpose stretch by the same factor. -/
theorem size_mulVec_le {A : Matrix (Fin n) (Fin k) ℝ} {κ : ℝ} (hκ : 0 ≤ κ) (h : ∀ x, size (x ᵥ* A) ≤ κ * size x)
    (u : Fin k → ℝ) : size (A *ᵥ u) ≤ κ * size u := by
  have h1 : size (A *ᵥ u) ^ 2 ≤ κ * size (A *ᵥ u) * size u := by
    rw [size_sq, dotProduct_mulVec]
    exact (le_abs_self _).trans ((abs_dot_le _ _).trans (mul_le_mul_of_nonneg_right (h _) (size_nonneg _)))
  rcases (size_nonneg (A *ᵥ u)).eq_or_lt with h0 | h0
  · rw [← h0]; exact mul_nonneg hκ (size_nonneg _)
  · nlinarith

theorem size_vecMul_le {A B : Matrix (Fin n) (Fin n) ℝ} {η : ℝ} (h : SpreadNear η A B) (x : Fin n → ℝ) :
    size (x ᵥ* B) ≤ Real.exp (η / 2) * size (x ᵥ* A) := by
  have h1 := (h x).1
  have e : Real.exp η = Real.exp (η / 2) ^ 2 := by rw [← Real.exp_nat_mul]; congr 1; push_cast; ring
  rw [size, size, ← Real.sqrt_sq (Real.exp_pos (η / 2)).le, ← Real.sqrt_mul (sq_nonneg _), ← e]
  exact Real.sqrt_le_sqrt h1

/-- Standardising with close factors. -/
theorem standardise_le {A B : Matrix (Fin n) (Fin n) ℝ} {η : ℝ} (h : SpreadNear η A B) (hA : A.det ≠ 0) (u : Fin n → ℝ) :
    size (A⁻¹ *ᵥ (B *ᵥ u)) ≤ Real.exp (η / 2) * size u := by
  rw [Matrix.mulVec_mulVec]
  refine size_mulVec_le (Real.exp_pos _).le (fun x => ?_) u
  have := size_vecMul_le h (x ᵥ* A⁻¹)
  rwa [Matrix.vecMul_vecMul, Matrix.vecMul_vecMul, Matrix.nonsing_inv_mul _ (isUnit_iff_ne_zero.mpr hA), Matrix.vecMul_one]
    at this

theorem standardise_ge {A B : Matrix (Fin n) (Fin n) ℝ} {η : ℝ} (h : SpreadNear η A B) (hA : A.det ≠ 0) (u : Fin n → ℝ) :
    size u ≤ Real.exp (η / 2) * size (A⁻¹ *ᵥ (B *ᵥ u)) := by
  have hB := spread_det h hA
  have := standardise_le h.symm hB (A⁻¹ *ᵥ (B *ᵥ u))
  rwa [Matrix.mulVec_mulVec _ A, Matrix.mul_nonsing_inv _ (isUnit_iff_ne_zero.mpr hA), Matrix.one_mulVec, Matrix.mulVec_mulVec,
    Matrix.nonsing_inv_mul _ (isUnit_iff_ne_zero.mpr hB), Matrix.one_mulVec] at this

/-- The standardised innovation. -/
theorem innovation_near {I I' : Matrix (Fin ny) (Fin ny) ℝ} {L : Matrix (Fin nx) (Fin nx) ℝ} {H : Matrix (Fin ny) (Fin nx) ℝ}
    {η c : ℝ} (h : SpreadNear η I I') (hI : I.det ≠ 0) (hL : ∀ a, varAlong L (a ᵥ* H) ≤ varAlong I a) (hc : 0 ≤ c)
    {e : Fin nx → ℝ} (he : ∀ w, |w ⬝ᵥ e| ≤ c * Real.sqrt (varAlong L w)) (u : Fin ny → ℝ) :
    |size (I⁻¹ *ᵥ (I' *ᵥ u + H *ᵥ e)) - size u| ≤ (Real.exp (η / 2) - 1) * size u + c := by
  have hu : IsUnit I.det := isUnit_iff_ne_zero.mpr hI
  obtain ⟨g, hg⟩ : ∃ g, g = I⁻¹ *ᵥ (H *ᵥ e) := ⟨_, rfl⟩
  have hgc : size g ≤ c := by
    have h1 : size g ^ 2 ≤ c * size g := by
      have e1 : size g ^ 2 = (g ᵥ* I⁻¹ ᵥ* H) ⬝ᵥ e := by
        rw [size_sq, ← dotProduct_mulVec, ← dotProduct_mulVec, ← hg]
      rw [e1]
      refine (le_abs_self _).trans ((he _).trans ?_)
      refine mul_le_mul_of_nonneg_left ?_ hc
      refine (Real.sqrt_le_sqrt (hL _)).trans (le_of_eq ?_)
      rw [varAlong, Matrix.vecMul_vecMul, Matrix.nonsing_inv_mul _ hu, Matrix.vecMul_one, size]
    rcases (size_nonneg g).eq_or_lt with h0 | h0
    · rw [← h0]; exact hc
    · nlinarith
  obtain ⟨β, hβ⟩ : ∃ β, β = I⁻¹ *ᵥ (I' *ᵥ u) := ⟨_, rfl⟩
  have hsum : I⁻¹ *ᵥ (I' *ᵥ u + H *ᵥ e) = β + g := by rw [Matrix.mulVec_add, hβ, hg]
  have t1 := size_add_le β g
  have t2 : size β ≤ size (β + g) + size g := by
    have := size_add_le (β + g) (-g)
    rwa [add_neg_cancel_right, size_neg] at this
  have b1 := standardise_le h hI u
  have b2 := standardise_ge h hI u
  rw [← hβ] at b1 b2
  have hn := size_nonneg u
  have hnβ := size_nonneg β
  have hp := Real.exp_pos (η / 2)
  rw [hsum, abs_le]
  constructor
  · have : size u - size β ≤ (Real.exp (η / 2) - 1) * size u := by
      by_cases hle : size u ≤ size β
      · by_cases h1 : 1 ≤ Real.exp (η / 2)
        · nlinarith
        · push Not at h1
          nlinarith
      · push Not at hle
        nlinarith [mul_self_nonneg (Real.exp (η / 2) - 1)]
    linarith
  · linarith

end Cuthbert.Kalman
