import Verif.Props.Quadrature
import Verif.Props.CholeskyUpdate
import Mathlib.Analysis.InnerProductSpace.Positive

/-!
# Statistical linear regression (C41, C44, C69)
-/

namespace Cuthbert.Quadrature
open Matrix

noncomputable section

variable {n nx ny N : ℕ}

/-- A rule whose points have the right mean and covariance, see C40. -/
def MatchesMoments (rule : Rule n N) : Prop :=
  ∀ (m : Fin n → ℝ) (L : Matrix (Fin n) (Fin n) ℝ),
    ∑ k, (rule.getSigmaPoints m L).wm k = 1 ∧ (rule.getSigmaPoints m L).mean = m ∧
      (rule.getSigmaPoints m L).covariance (rule.getSigmaPoints m L) = L * Lᵀ

theorem cubature_matches (hn : 0 < n) : MatchesMoments (cubature n) := cubature_moments hn

theorem unscented_matches {alpha beta : ℝ} {kappa : Option ℝ} {r : Rule n (1 + (n + n))}
    (hr : unscented n alpha beta kappa = some r) : MatchesMoments r := unscented_moments hr

theorem gaussHermite_matches {order : ℕ} (h : Hermegauss order) (ho : 2 ≤ order) :
    MatchesMoments (gaussHermite h n) := gaussHermite_moments h ho

/-! ## Uniqueness and existence of the Cholesky factor -/

theorem chol_unique {L M : Matrix (Fin n) (Fin n) ℝ} (hL : ∀ i j, i < j → L i j = 0) (hM : ∀ i j, i < j → M i j = 0)
    (hLp : ∀ i, 0 < L i i) (hMp : ∀ i, 0 < M i i) (h : L * Lᵀ = M * Mᵀ) : L = M := by
  have split : ∀ (K : Matrix (Fin n) (Fin n) ℝ), (∀ i j, i < j → K i j = 0) → ∀ i j, (K * Kᵀ) i j =
      ∑ l, (if l < j then K i l * K j l else 0) + K i j * K j j := by
    intro K hK i j
    rw [Matrix.mul_apply, ← Finset.add_sum_erase _ _ (Finset.mem_univ j),
      ← Finset.add_sum_erase Finset.univ (fun l => if l < j then K i l * K j l else 0) (Finset.mem_univ j),
      if_neg (lt_irrefl j), zero_add, add_comm]
    congr 1
    refine Finset.sum_congr rfl fun l hl => ?_
    rw [Matrix.transpose_apply]
    split_ifs with hlj
    · rfl
    · rw [hK j l (lt_of_le_of_ne (not_lt.mp hlj) (Finset.ne_of_mem_erase hl).symm), mul_zero]
  have key : ∀ (j : Fin n) (i : Fin n), L i j = M i j := by
    intro j
    refine WellFoundedLT.induction (motive := fun j : Fin n => ∀ i, L i j = M i j) j fun j ih => ?_
    have e : ∀ i, L i j * L j j = M i j * M j j := fun i => by
      have h1 := split L hL i j
      have h2 := split M hM i j
      rw [h, h2] at h1
      have : ∑ l, (if l < j then L i l * L j l else 0) = ∑ l, if l < j then M i l * M j l else 0 :=
        Finset.sum_congr rfl fun l _ => by
          split_ifs with hl
          · rw [ih l hl, ih l hl]
          · rfl
      rw [this] at h1
      linarith
    have hd : L j j = M j j := by
      have := e j
      nlinarith [hLp j, hMp j, mul_pos (hLp j) (hMp j)]
    intro i
    have := e i
    rw [hd] at this
    exact mul_right_cancel₀ (hMp j).ne' this
  ext i j
  exact key j i

theorem factor_gram (ch : Cholesky) {L : Matrix (Fin n) (Fin n) ℝ} (hL : ∀ i j, i < j → L i j = 0)
    (hp : ∀ i, 0 < L i i) : ch.factor (L * Lᵀ) = some L := by
  have hps : (L * Lᵀ).PosSemidef := by
    have := Matrix.posSemidef_self_mul_conjTranspose L
    rwa [Matrix.conjTranspose_eq_transpose_of_trivial] at this
  have hdet := (IsLower.diag_ne_zero_iff_gram hL).mp fun i => (hp i).ne'
  have hpd : (L * Lᵀ).PosDef := hps.posDef_iff_isUnit.mpr ((Matrix.isUnit_iff_isUnit_det _).mpr hdet.isUnit)
  obtain ⟨M, h1, h2, h3, h4⟩ := ch.posDef _ hpd
  rw [h1, chol_unique h2 hL h3 hp h4]

/-! ## What the regression computes -/

/-- The gain of the regression. -/
def slrA (x : SigmaPoints N nx) (f : (Fin nx → ℝ) → Fin ny → ℝ) (P : Matrix (Fin nx) (Fin nx) ℝ) :
    Matrix (Fin ny) (Fin nx) ℝ := (P⁻¹ * x.covariance (mapPoints x f))ᵀ

theorem covMode_eq (qr : QR) (ch : Cholesky) (f : (Fin nx → ℝ) → Fin ny → ℝ)
    (V : (Fin nx → ℝ) → Matrix (Fin ny) (Fin ny) ℝ) (m : Fin nx → ℝ) {L : Matrix (Fin nx) (Fin nx) ℝ}
    (hL : ∀ i j, i < j → L i j = 0) (hd : ∀ i, 0 < L i i) (rule : Rule nx N) (x : SigmaPoints N nx)
    (hx : x = rule.getSigmaPoints m L) (A : Matrix (Fin ny) (Fin nx) ℝ) (hA : A = slrA x f (L * Lᵀ))
    (Q : Matrix (Fin ny) (Fin ny) ℝ) (hQ : Q = (mapPoints x f).covariance (mapPoints x f) +
      ∑ k, x.wc k • V (x.points k) - A * (L * Lᵀ) * Aᵀ) :
    conditionalMoments qr ch f V m (L * Lᵀ) rule "covariance" =
      some (A, (mapPoints x f).mean - A *ᵥ m, (1 / 2 : ℝ) • (Q + Qᵀ)) := by
  have hc : choSolveMat L (x.covariance (mapPoints x f)) = some ((L * Lᵀ)⁻¹ * x.covariance (mapPoints x f)) := by
    unfold choSolveMat
    rw [if_pos fun i => (hd i).ne', lowerPart_eq hL]
  unfold conditionalMoments
  simp only [if_true, factor_gram ch hL hd, Option.bind_eq_bind, Option.bind_some, ← hx, hc, ne_eq,
    not_true_eq_false, if_false, pure]
  have : ((L * Lᵀ)⁻¹ * x.covariance (mapPoints x f))ᵀ = A := hA.symm
  rw [this, ← hQ]

/-- The matrix of scaled conditional factors of the square-root branch. -/
theorem temp_gram (wc : Fin N → ℝ) (hw : ∀ k, 0 ≤ wc k) (S : Fin N → Matrix (Fin ny) (Fin ny) ℝ)
    (T : Matrix (Fin ny) (Fin (N * ny)) ℝ) (hT : T = Matrix.of fun i c =>
      Real.sqrt (wc (finProdFinEquiv.symm c).1) * S (finProdFinEquiv.symm c).1 i (finProdFinEquiv.symm c).2) :
    T * Tᵀ = ∑ k, wc k • (S k * (S k)ᵀ) := by
  ext i j
  rw [Matrix.mul_apply, Matrix.sum_apply, ← finProdFinEquiv.sum_comp, Fintype.sum_prod_type, hT]
  refine Finset.sum_congr rfl fun k _ => ?_
  rw [Matrix.smul_apply, Matrix.mul_apply, smul_eq_mul, Finset.mul_sum]
  refine Finset.sum_congr rfl fun l _ => ?_
  simp only [Matrix.of_apply, Matrix.transpose_apply, Equiv.symm_apply_apply]
  rw [mul_mul_mul_comm, Real.mul_self_sqrt (hw k)]

/-- `SigmaPoints.sqrt` is a square root of `SigmaPoints.covariance()` when the covariance weights are
non-negative. -/
theorem sqrt_gram (qr : QR) (s : SigmaPoints N n) (hw : ∀ k, 0 ≤ s.wc k) :
    ∃ R, s.sqrt qr = some R ∧ R * Rᵀ = s.covariance s := by
  refine ⟨_, if_pos hw, ?_⟩
  rw [tria_gram]
  ext i j
  rw [Matrix.mul_apply, SigmaPoints.covariance, cov_apply]
  refine Finset.sum_congr rfl fun k _ => ?_
  simp only [Matrix.transpose_apply, Matrix.of_apply]
  rw [mul_mul_mul_comm, Real.mul_self_sqrt (hw k)]

theorem sqrtMode_eq (qr : QR) (ch : Cholesky) (f : (Fin nx → ℝ) → Fin ny → ℝ)
    (S : (Fin nx → ℝ) → Matrix (Fin ny) (Fin ny) ℝ) (m : Fin nx → ℝ) {L : Matrix (Fin nx) (Fin nx) ℝ}
    (hL : ∀ i j, i < j → L i j = 0) (hd : ∀ i, L i i ≠ 0) (rule : Rule nx N) (x : SigmaPoints N nx)
    (hx : x = rule.getSigmaPoints m L) (hN : 0 < N) (hw : ∀ k, 0 ≤ x.wc k)
    (A : Matrix (Fin ny) (Fin nx) ℝ) (hA : A = slrA x f (L * Lᵀ)) (mode : String) (hm : mode ≠ "covariance") :
    ∃ C : Matrix (Fin ny) (Fin ny) ℝ, (∀ i j, i < j → C i j = 0) ∧
      C * Cᵀ = (mapPoints x f).covariance (mapPoints x f) +
        ∑ k, x.wc k • (S (x.points k) * (S (x.points k))ᵀ) ∧
      conditionalMoments qr ch f S m L rule mode =
        some (A, (mapPoints x f).mean - A *ᵥ m, choleskyUpdateMany C (A * L)ᵀ (-1)) := by
  have hc : choSolveMat L (x.covariance (mapPoints x f)) = some ((L * Lᵀ)⁻¹ * x.covariance (mapPoints x f)) := by
    unfold choSolveMat
    rw [if_pos hd, lowerPart_eq hL]
  obtain ⟨R, hR, hRg⟩ := sqrt_gram qr (mapPoints x f) hw
  have hle : ny ≤ min N ny + N * ny := le_trans (Nat.le_mul_of_pos_left ny hN) (Nat.le_add_left _ _)
  obtain ⟨T, hT⟩ : ∃ T : Matrix (Fin ny) (Fin (N * ny)) ℝ, T = Matrix.of fun i c =>
      Real.sqrt (x.wc (finProdFinEquiv.symm c).1) *
        S (x.points (finProdFinEquiv.symm c).1) i (finProdFinEquiv.symm c).2 := ⟨_, rfl⟩
  refine ⟨triaSq qr (hcat R T) hle, triaSq_lower qr _ hle, ?_, ?_⟩
  · rw [triaSq_gram, hcat_gram, hRg, temp_gram x.wc hw (fun k => S (x.points k)) T hT]
  · unfold conditionalMoments
    simp only [Option.bind_eq_bind, Option.bind_some, ← hx, hc, ne_eq, hm,
      not_false_eq_true, if_true, if_false, pure, hR]
    have : ((L * Lᵀ)⁻¹ * x.covariance (mapPoints x f))ᵀ = A := hA.symm
    rw [this, ← hT, dif_pos hle]

/-! ## C69: the residual -/

theorem gram_isUnit_det {L : Matrix (Fin n) (Fin n) ℝ} (hL : ∀ i j, i < j → L i j = 0) (hd : ∀ i, L i i ≠ 0) :
    IsUnit (L * Lᵀ).det := ((IsLower.diag_ne_zero_iff_gram hL).mp hd).isUnit

/-- The regression residual at a point. -/
def residual (x : SigmaPoints N nx) (f : (Fin nx → ℝ) → Fin ny → ℝ) (A : Matrix (Fin ny) (Fin nx) ℝ)
    (b : Fin ny → ℝ) (k : Fin N) : Fin ny → ℝ := f (x.points k) - A *ᵥ x.points k - b

theorem residual_apply (x : SigmaPoints N nx) (f : (Fin nx → ℝ) → Fin ny → ℝ) (A : Matrix (Fin ny) (Fin nx) ℝ)
    (m : Fin nx → ℝ) (k : Fin N) (i : Fin ny) :
    residual x f A ((mapPoints x f).mean - A *ᵥ m) k i =
      (f (x.points k) i - (mapPoints x f).mean i) - ∑ l, A i l * (x.points k l - m l) := by
  simp only [residual, Pi.sub_apply, mulVec, dotProduct, mul_sub, Finset.sum_sub_distrib]
  ring

theorem slrA_mul {x : SigmaPoints N nx} {f : (Fin nx → ℝ) → Fin ny → ℝ} {P : Matrix (Fin nx) (Fin nx) ℝ}
    (hP : IsUnit P.det) (hs : Pᵀ = P) : slrA x f P * P = (x.covariance (mapPoints x f))ᵀ := by
  unfold slrA
  rw [Matrix.transpose_mul, Matrix.transpose_nonsing_inv, hs, Matrix.mul_assoc, Matrix.nonsing_inv_mul _ hP,
    Matrix.mul_one]

/-- Orthogonality of the residual. -/
theorem residual_orthogonal {x : SigmaPoints N nx} {f : (Fin nx → ℝ) → Fin ny → ℝ} {m : Fin nx → ℝ}
    {P : Matrix (Fin nx) (Fin nx) ℝ} (hP : IsUnit P.det) (hs : Pᵀ = P) (hmean : x.mean = m)
    (hcov : x.covariance x = P) (A : Matrix (Fin ny) (Fin nx) ℝ) (hA : A = slrA x f P) (i : Fin ny) (j : Fin nx) :
    ∑ k, x.wc k * (residual x f A ((mapPoints x f).mean - A *ᵥ m) k i *
      (x.points k j - m j)) = 0 := by
  have h1 : (A * P) i j = ∑ k, x.wc k * ((x.points k j - m j) *
      (f (x.points k) i - (mapPoints x f).mean i)) := by
    rw [hA, slrA_mul hP hs, Matrix.transpose_apply, SigmaPoints.covariance, cov_apply, hmean]
    rfl
  have h2 : (A * P) i j = ∑ k, x.wc k * ((∑ l, A i l * (x.points k l - m l)) *
      (x.points k j - m j)) := by
    rw [Matrix.mul_apply]
    conv_lhs => rw [← hcov]
    simp only [SigmaPoints.covariance, cov_apply, hmean]
    simp only [Finset.mul_sum, Finset.sum_mul]
    rw [Finset.sum_comm]
    exact Finset.sum_congr rfl fun k _ => Finset.sum_congr rfl fun l _ => by ring
  simp only [residual_apply]
  have : ∀ k, x.wc k * ((f (x.points k) i - (mapPoints x f).mean i - ∑ l, A i l * (x.points k l - m l)) *
      (x.points k j - m j)) = x.wc k * ((x.points k j - m j) * (f (x.points k) i - (mapPoints x f).mean i)) -
      x.wc k * ((∑ l, A i l * (x.points k l - m l)) * (x.points k j - m j)) := fun k => by ring
  simp only [this, Finset.sum_sub_distrib]
  rw [← h1, ← h2, sub_self]

/-- The covariance of the residual. -/
theorem residual_cov {x : SigmaPoints N nx} {f : (Fin nx → ℝ) → Fin ny → ℝ} {m : Fin nx → ℝ}
    {P : Matrix (Fin nx) (Fin nx) ℝ} (hP : IsUnit P.det) (hs : Pᵀ = P) (hmean : x.mean = m)
    (hcov : x.covariance x = P) (A : Matrix (Fin ny) (Fin nx) ℝ) (hA : A = slrA x f P) :
    (mapPoints x f).covariance (mapPoints x f) - A * P * Aᵀ =
      ∑ k, x.wc k • vecMulVec (residual x f A ((mapPoints x f).mean - A *ᵥ m) k)
        (residual x f A ((mapPoints x f).mean - A *ᵥ m) k) := by
  ext i j
  obtain ⟨g, hg⟩ : ∃ g : Fin N → Fin ny → ℝ, g = fun k i => f (x.points k) i - (mapPoints x f).mean i := ⟨_, rfl⟩
  obtain ⟨a, ha⟩ : ∃ a : Fin N → Fin ny → ℝ, a = fun k i => ∑ l, A i l * (x.points k l - m l) := ⟨_, rfl⟩
  have hr : ∀ k i, residual x f A ((mapPoints x f).mean - A *ᵥ m) k i = g k i - a k i := fun k i => by
    rw [residual_apply, hg, ha]
  have horth : ∀ i j, ∑ k, x.wc k * ((g k i - a k i) * a k j) = 0 := fun i j => by
    have h := fun l => residual_orthogonal (f := f) hP hs hmean hcov A hA i l
    simp only [hr] at h
    have : ∀ k, x.wc k * ((g k i - a k i) * a k j) =
        ∑ l, A j l * (x.wc k * ((g k i - a k i) * (x.points k l - m l))) := fun k => by
      simp only [ha, Finset.mul_sum]
      exact Finset.sum_congr rfl fun l _ => by ring
    simp only [this]
    rw [Finset.sum_comm]
    exact Finset.sum_eq_zero fun l _ => by rw [← Finset.mul_sum, h l, mul_zero]
  have haa : (A * P * Aᵀ) i j = ∑ k, x.wc k * (a k i * a k j) := by
    rw [Matrix.mul_apply]
    simp only [Matrix.mul_apply, Matrix.transpose_apply]
    conv_lhs => rw [← hcov]
    simp only [SigmaPoints.covariance, cov_apply, hmean, ha, Finset.mul_sum, Finset.sum_mul]
    rw [Finset.sum_congr rfl fun l _ => Finset.sum_comm, Finset.sum_comm]
    refine Finset.sum_congr rfl fun k _ => ?_
    refine Finset.sum_congr rfl fun l _ => Finset.sum_congr rfl fun l' _ => by ring
  have hphi : ((mapPoints x f).covariance (mapPoints x f)) i j = ∑ k, x.wc k * (g k i * g k j) := by
    rw [SigmaPoints.covariance, cov_apply, hg]
    rfl
  rw [Matrix.sub_apply, haa, hphi, Matrix.sum_apply]
  simp only [Matrix.smul_apply, vecMulVec_apply, hr, smul_eq_mul]
  have o1 := horth i j
  have o2 := horth j i
  have : ∑ k, x.wc k * ((g k i - a k i) * (g k j - a k j)) = ∑ k, x.wc k * (g k i * g k j) -
      ∑ k, x.wc k * (a k i * a k j) - ∑ k, x.wc k * ((g k i - a k i) * a k j) -
      ∑ k, x.wc k * ((g k j - a k j) * a k i) := by
    simp only [← Finset.sum_sub_distrib]
    exact Finset.sum_congr rfl fun k _ => by ring
  rw [this, o1, o2]
  ring

theorem gram_symm (L : Matrix (Fin n) (Fin n) ℝ) : (L * Lᵀ)ᵀ = L * Lᵀ := by
  rw [Matrix.transpose_mul, Matrix.transpose_transpose]

theorem gram_posSemidef (S : Matrix (Fin n) (Fin n) ℝ) : (S * Sᵀ).PosSemidef := by
  have := Matrix.posSemidef_self_mul_conjTranspose S
  rwa [Matrix.conjTranspose_eq_transpose_of_trivial] at this

/-- **C69**. The result of `conditional_moments` in covariance mode, for any conditional mean and covariance and
any rule with the right first two moments: the residuals average to zero, they are uncorrelated with the input,
and the returned covariance is the covariance of the residuals plus the average conditional covariance. -/
theorem slr_residual (qr : QR) (ch : Cholesky) (f : (Fin nx → ℝ) → Fin ny → ℝ)
    (V : (Fin nx → ℝ) → Matrix (Fin ny) (Fin ny) ℝ) (hV : ∀ z, (V z)ᵀ = V z) (m : Fin nx → ℝ)
    (L : Matrix (Fin nx) (Fin nx) ℝ) (hL : ∀ i j, i < j → L i j = 0) (hd : ∀ i, 0 < L i i) (rule : Rule nx N)
    (hrule : MatchesMoments rule) (x : SigmaPoints N nx) (hx : x = rule.getSigmaPoints m L) :
    ∃ A b Q, conditionalMoments qr ch f V m (L * Lᵀ) rule "covariance" = some (A, b, Q) ∧
      (∀ i, ∑ k, x.wm k * residual x f A b k i = 0) ∧
      (∀ i j, ∑ k, x.wc k * (residual x f A b k i * (x.points k j - m j)) = 0) ∧
      Q = ∑ k, x.wc k • (vecMulVec (residual x f A b k) (residual x f A b k) + V (x.points k)) := by
  obtain ⟨hsum, hmean, hcov⟩ := hrule m L
  rw [← hx] at hsum hmean hcov
  have hP := gram_isUnit_det hL fun i => (hd i).ne'
  have hs := gram_symm L
  obtain ⟨A, hA⟩ : ∃ A, A = slrA x f (L * Lᵀ) := ⟨_, rfl⟩
  have hres := residual_cov hP hs hmean hcov A hA
  have hQ : (mapPoints x f).covariance (mapPoints x f) + ∑ k, x.wc k • V (x.points k) - A * (L * Lᵀ) * Aᵀ =
      ∑ k, x.wc k • (vecMulVec (residual x f A ((mapPoints x f).mean - A *ᵥ m) k)
        (residual x f A ((mapPoints x f).mean - A *ᵥ m) k) + V (x.points k)) := by
    rw [add_sub_right_comm, hres, ← Finset.sum_add_distrib]
    exact Finset.sum_congr rfl fun k _ => (smul_add _ _ _).symm
  have hsym : (∑ k, x.wc k • (vecMulVec (residual x f A ((mapPoints x f).mean - A *ᵥ m) k)
        (residual x f A ((mapPoints x f).mean - A *ᵥ m) k) + V (x.points k)))ᵀ =
      ∑ k, x.wc k • (vecMulVec (residual x f A ((mapPoints x f).mean - A *ᵥ m) k)
        (residual x f A ((mapPoints x f).mean - A *ᵥ m) k) + V (x.points k)) := by
    rw [Matrix.transpose_sum]
    refine Finset.sum_congr rfl fun k _ => ?_
    rw [Matrix.transpose_smul, Matrix.transpose_add, hV, Matrix.transpose_vecMulVec]
  have he := covMode_eq qr ch f V m hL hd rule x hx A hA _ hQ.symm
  rw [hsym] at he
  refine ⟨A, _, _, he, fun i => ?_, fun i j => residual_orthogonal hP hs hmean hcov A hA i j, by module⟩
  simp only [residual_apply, mul_sub, Finset.sum_sub_distrib, ← Finset.sum_mul, hsum, one_mul]
  have h1 : ∑ k, x.wm k * f (x.points k) i = (mapPoints x f).mean i := rfl
  have h2 : ∑ k, x.wm k * ∑ l, A i l * x.points k l = ∑ l, A i l * m l := by
    simp only [← hmean, mean_apply, Finset.mul_sum]
    rw [Finset.sum_comm]
    exact Finset.sum_congr rfl fun l _ => Finset.sum_congr rfl fun k _ => by ring
  rw [h1, sub_self, zero_sub, neg_eq_zero, h2, sub_self]

/-- **C69**. With non-negative covariance weights the returned covariance is positive semidefinite, and positive
definite if the conditional covariances are and some weight is positive. -/
theorem slr_covariance_posDef (qr : QR) (ch : Cholesky) (f : (Fin nx → ℝ) → Fin ny → ℝ)
    (V : (Fin nx → ℝ) → Matrix (Fin ny) (Fin ny) ℝ) (hV : ∀ z, (V z).PosSemidef) (m : Fin nx → ℝ)
    (L : Matrix (Fin nx) (Fin nx) ℝ) (hL : ∀ i j, i < j → L i j = 0) (hd : ∀ i, 0 < L i i) (rule : Rule nx N)
    (hrule : MatchesMoments rule) (hw : ∀ k, 0 ≤ (rule.getSigmaPoints m L).wc k) :
    ∃ A b Q, conditionalMoments qr ch f V m (L * Lᵀ) rule "covariance" = some (A, b, Q) ∧ Q.PosSemidef ∧
      ((∀ z, (V z).PosDef) → (∃ k, 0 < (rule.getSigmaPoints m L).wc k) → Q.PosDef) := by
  obtain ⟨A, b, Q, h1, -, -, h2⟩ := slr_residual qr ch f V
    (fun z => by have := (hV z).1; rwa [Matrix.IsHermitian, Matrix.conjTranspose_eq_transpose_of_trivial] at this)
    m L hL hd rule hrule _ rfl
  have hps : ∀ k, ((rule.getSigmaPoints m L).wc k • (vecMulVec (residual (rule.getSigmaPoints m L) f A b k)
      (residual (rule.getSigmaPoints m L) f A b k) + V ((rule.getSigmaPoints m L).points k))).PosSemidef :=
    fun k => ((outer_posSemidef _).add (hV _)).smul (hw k)
  refine ⟨A, b, Q, h1, ?_, fun hVd ⟨k, hk⟩ => ?_⟩
  · rw [h2]
    exact Matrix.posSemidef_sum _ fun k _ => hps k
  · rw [h2, ← Finset.add_sum_erase _ _ (Finset.mem_univ k)]
    exact ((Matrix.PosDef.posSemidef_add (outer_posSemidef _) (hVd _)).smul hk).add_posSemidef
      (Matrix.posSemidef_sum _ fun k _ => hps k)

/-- **C69**. When the two sets of weights agree, no other affine function has a smaller weighted residual
covariance. -/
theorem slr_optimal (qr : QR) (ch : Cholesky) (f : (Fin nx → ℝ) → Fin ny → ℝ)
    (V : (Fin nx → ℝ) → Matrix (Fin ny) (Fin ny) ℝ) (hV : ∀ z, (V z)ᵀ = V z) (m : Fin nx → ℝ)
    (L : Matrix (Fin nx) (Fin nx) ℝ) (hL : ∀ i j, i < j → L i j = 0) (hd : ∀ i, 0 < L i i) (rule : Rule nx N)
    (hrule : MatchesMoments rule) (x : SigmaPoints N nx) (hx : x = rule.getSigmaPoints m L) (hw : ∀ k, 0 ≤ x.wc k)
    (hwm : x.wm = x.wc) :
    ∃ A b Q, conditionalMoments qr ch f V m (L * Lᵀ) rule "covariance" = some (A, b, Q) ∧
      ∀ A' b', (∑ k, x.wc k • vecMulVec (residual x f A' b' k) (residual x f A' b' k) -
        ∑ k, x.wc k • vecMulVec (residual x f A b k) (residual x f A b k)).PosSemidef := by
  obtain ⟨A, b, Q, h1, h2, h3, -⟩ := slr_residual qr ch f V hV m L hL hd rule hrule x hx
  refine ⟨A, b, Q, h1, fun A' b' => ?_⟩
  obtain ⟨d, hdd⟩ : ∃ d : Fin N → Fin ny → ℝ, d = fun k i => ∑ l, (A i l - A' i l) * (x.points k l - m l) +
    (b i - b' i + ∑ l, (A i l - A' i l) * m l) := ⟨_, rfl⟩
  have hr : ∀ k i, residual x f A' b' k i = residual x f A b k i + d k i := fun k i => by
    simp only [residual, hdd, Pi.sub_apply, mulVec, dotProduct, mul_sub, sub_mul, Finset.sum_sub_distrib]
    ring
  have horth : ∀ i j, ∑ k, x.wc k * (residual x f A b k i * d k j) = 0 := fun i j => by
    have : ∀ k, x.wc k * (residual x f A b k i * d k j) =
        ∑ l, (A j l - A' j l) * (x.wc k * (residual x f A b k i * (x.points k l - m l))) +
        (b j - b' j + ∑ l, (A j l - A' j l) * m l) * (x.wm k * residual x f A b k i) := fun k => by
      simp only [hdd, hwm]
      rw [mul_add, mul_add, Finset.mul_sum, Finset.mul_sum]
      congr 1
      · exact Finset.sum_congr rfl fun l _ => by ring
      · ring
    simp only [this, Finset.sum_add_distrib]
    rw [Finset.sum_comm, ← Finset.mul_sum, h2 i, mul_zero, add_zero]
    exact Finset.sum_eq_zero fun l _ => by rw [← Finset.mul_sum, h3 i l, mul_zero]
  have key : ∑ k, x.wc k • vecMulVec (residual x f A' b' k) (residual x f A' b' k) -
        ∑ k, x.wc k • vecMulVec (residual x f A b k) (residual x f A b k) = ∑ k, x.wc k • vecMulVec (d k) (d k) := by
    ext i j
    rw [Matrix.sub_apply, Matrix.sum_apply, Matrix.sum_apply, Matrix.sum_apply]
    simp only [Matrix.smul_apply, vecMulVec_apply, hr, smul_eq_mul]
    have e : ∑ k, x.wc k * ((residual x f A b k i + d k i) * (residual x f A b k j + d k j)) =
        ∑ k, x.wc k * (residual x f A b k i * residual x f A b k j) +
        ∑ k, x.wc k * (residual x f A b k i * d k j) + ∑ k, x.wc k * (residual x f A b k j * d k i) +
        ∑ k, x.wc k * (d k i * d k j) := by
      simp only [← Finset.sum_add_distrib]
      exact Finset.sum_congr rfl fun k _ => by ring
    rw [e, horth, horth]
    ring
  rw [key]
  exact Matrix.posSemidef_sum _ fun k _ => (outer_posSemidef _).smul (hw k)

/-! ## C44: the two modes -/

/-- **C44** (`_partial`: the resulting covariance must be positive definite, see `modes_disagree`). For every
rule with at least one point and non-negative covariance weights and all conditional means and factors, the
square-root mode returns the same gain and offset as the covariance mode and a lower-triangular factor of its
covariance. -/
theorem modes_agree_partial (qr : QR) (ch : Cholesky) (f : (Fin nx → ℝ) → Fin ny → ℝ)
    (S : (Fin nx → ℝ) → Matrix (Fin ny) (Fin ny) ℝ) (m : Fin nx → ℝ)
    (L : Matrix (Fin nx) (Fin nx) ℝ) (hL : ∀ i j, i < j → L i j = 0) (hd : ∀ i, 0 < L i i) (rule : Rule nx N)
    (hN : 0 < N) (hw : ∀ k, 0 ≤ (rule.getSigmaPoints m L).wc k) (mode : String) (hm : mode ≠ "covariance") :
    ∃ A b Q, conditionalMoments qr ch f (fun z => S z * (S z)ᵀ) m (L * Lᵀ) rule "covariance" = some (A, b, Q) ∧
      (Q.PosDef → ∃ C, conditionalMoments qr ch f S m L rule mode = some (A, b, C) ∧
        (∀ i j, i < j → C i j = 0) ∧ C * Cᵀ = Q) := by
  obtain ⟨x, hx⟩ : ∃ x, x = rule.getSigmaPoints m L := ⟨_, rfl⟩
  rw [← hx] at hw
  obtain ⟨A, hA⟩ : ∃ A, A = slrA x f (L * Lᵀ) := ⟨_, rfl⟩
  obtain ⟨Q, hQ⟩ : ∃ Q, Q = (mapPoints x f).covariance (mapPoints x f) +
      ∑ k, x.wc k • (S (x.points k) * (S (x.points k))ᵀ) - A * (L * Lᵀ) * Aᵀ := ⟨_, rfl⟩
  have hc := covMode_eq qr ch f (fun z => S z * (S z)ᵀ) m hL hd rule x hx A hA Q hQ
  obtain ⟨C, hC1, hC2, hC3⟩ := sqrtMode_eq qr ch f S m hL (fun i => (hd i).ne') rule x hx hN hw A hA mode hm
  have hQs : Qᵀ = Q := by
    have h1 : ((mapPoints x f).covariance (mapPoints x f) +
      ∑ k, x.wc k • (S (x.points k) * (S (x.points k))ᵀ))ᵀ = (mapPoints x f).covariance (mapPoints x f) +
      ∑ k, x.wc k • (S (x.points k) * (S (x.points k))ᵀ) := by
      rw [← hC2, gram_symm]
    rw [hQ, Matrix.transpose_sub, h1, Matrix.transpose_mul, Matrix.transpose_mul, Matrix.transpose_transpose,
      gram_symm]
    simp only [Matrix.mul_assoc]
  have hQ2 : (1 / 2 : ℝ) • (Q + Qᵀ) = Q := by rw [hQs]; module
  rw [hQ2] at hc
  refine ⟨A, _, Q, hc, fun hpd => ?_⟩
  have e : C * Cᵀ + (-1 : ℝ) • ((A * L)ᵀᵀ * (A * L)ᵀ) = Q := by
    rw [hC2, hQ, Matrix.transpose_transpose, Matrix.transpose_mul, neg_one_smul, ← sub_eq_add_neg]
    simp only [Matrix.mul_assoc]
  obtain ⟨h1, h2⟩ := cholesky_update_many_down C (A * L)ᵀ (-1) (by norm_num) hC1 (by rw [e]; exact hpd)
  exact ⟨_, hC3, h1, by rw [h2, e]⟩

/-- **C44**, with noise in every direction: if every conditional factor is invertible, the two modes agree for
every rule with the right moments and non-negative covariance weights, not all zero. -/
theorem modes_agree_of_noise (qr : QR) (ch : Cholesky) (f : (Fin nx → ℝ) → Fin ny → ℝ)
    (S : (Fin nx → ℝ) → Matrix (Fin ny) (Fin ny) ℝ) (hS : ∀ z, (S z).det ≠ 0) (m : Fin nx → ℝ)
    (L : Matrix (Fin nx) (Fin nx) ℝ) (hL : ∀ i j, i < j → L i j = 0) (hd : ∀ i, 0 < L i i) (rule : Rule nx N)
    (hrule : MatchesMoments rule) (hw : ∀ k, 0 ≤ (rule.getSigmaPoints m L).wc k)
    (hpos : ∃ k, 0 < (rule.getSigmaPoints m L).wc k) (mode : String) (hm : mode ≠ "covariance") :
    ∃ A b Q C, conditionalMoments qr ch f (fun z => S z * (S z)ᵀ) m (L * Lᵀ) rule "covariance" = some (A, b, Q) ∧
      conditionalMoments qr ch f S m L rule mode = some (A, b, C) ∧ (∀ i j, i < j → C i j = 0) ∧ C * Cᵀ = Q := by
  have hN : 0 < N := by
    obtain ⟨k, -⟩ := hpos
    exact lt_of_le_of_lt (Nat.zero_le _) k.2
  obtain ⟨A, b, Q, h1, h2⟩ := modes_agree_partial qr ch f S m L hL hd rule hN hw mode hm
  obtain ⟨A', b', Q', h3, -, h4⟩ := slr_covariance_posDef qr ch f (fun z => S z * (S z)ᵀ)
    (fun z => gram_posSemidef _) m L hL hd rule hrule hw
  rw [h1] at h3
  obtain ⟨rfl, rfl, rfl⟩ : A = A' ∧ b = b' ∧ Q = Q' := by simpa using h3
  obtain ⟨C, h5, h6, h7⟩ := h2 (h4 (fun z => (gram_posSemidef _).posDef_iff_isUnit.mpr
    ((Matrix.isUnit_iff_isUnit_det _).mpr (by
      rw [Matrix.det_mul, Matrix.det_transpose]; exact (mul_ne_zero (hS z) (hS z)).isUnit))) hpos)
  exact ⟨A, b, Q, C, h1, h5, h6, h7⟩

/-! ## C41: affine models -/

/-- Points mapped by an affine function. -/
theorem affine_moments {x : SigmaPoints N nx} {m : Fin nx → ℝ} {P : Matrix (Fin nx) (Fin nx) ℝ}
    (hsum : ∑ k, x.wm k = 1) (hmean : x.mean = m) (hcov : x.covariance x = P) (F : Matrix (Fin ny) (Fin nx) ℝ)
    (c : Fin ny → ℝ) (y : SigmaPoints N ny) (hy : y = mapPoints x fun z => F *ᵥ z + c) :
    y.mean = F *ᵥ m + c ∧ x.covariance y = P * Fᵀ ∧ y.covariance y = F * P * Fᵀ := by
  have hp : ∀ k i, y.points k i = ∑ l, F i l * x.points k l + c i := fun k i => by rw [hy]; rfl
  have hwm : y.wm = x.wm := by rw [hy]; rfl
  have hwc : y.wc = x.wc := by rw [hy]; rfl
  have h1 : y.mean = F *ᵥ m + c := by
    funext i
    rw [mean_apply, hwm]
    simp only [hp, mul_add, Finset.sum_add_distrib, ← Finset.sum_mul, hsum, one_mul, Pi.add_apply, mulVec, dotProduct]
    congr 1
    simp only [← hmean, mean_apply, Finset.mul_sum]
    rw [Finset.sum_comm]
    exact Finset.sum_congr rfl fun l _ => Finset.sum_congr rfl fun k _ => by ring
  have hc : ∀ k i, y.points k i - y.mean i = ∑ l, F i l * (x.points k l - m l) := fun k i => by
    rw [hp, h1]
    simp only [Pi.add_apply, mulVec, dotProduct, mul_sub, Finset.sum_sub_distrib]
    ring
  refine ⟨h1, ?_, ?_⟩
  · ext i j
    rw [Matrix.mul_apply, SigmaPoints.covariance, cov_apply, ← hcov]
    simp only [SigmaPoints.covariance, cov_apply, hmean, hc, Matrix.transpose_apply, Finset.mul_sum, Finset.sum_mul]
    rw [Finset.sum_comm]
    exact Finset.sum_congr rfl fun l _ => Finset.sum_congr rfl fun k _ => by ring
  · ext i j
    rw [Matrix.mul_apply, SigmaPoints.covariance, cov_apply, hwc]
    simp only [Matrix.mul_apply, Matrix.transpose_apply]
    conv_rhs => rw [← hcov]
    simp only [SigmaPoints.covariance, cov_apply, hmean, hc, Finset.mul_sum, Finset.sum_mul]
    conv_rhs => rw [Finset.sum_congr rfl fun l _ => Finset.sum_comm, Finset.sum_comm]
    refine Finset.sum_congr rfl fun k _ => ?_
    refine Finset.sum_congr rfl fun l _ => Finset.sum_congr rfl fun l' _ => by ring

/-- **C41**, what is returned for an affine conditional mean and a constant conditional covariance, by every rule
with the right moments: the affine function itself, and the covariance multiplied by the sum of the covariance
weights. -/
theorem slr_affine (qr : QR) (ch : Cholesky) (F : Matrix (Fin ny) (Fin nx) ℝ) (c : Fin ny → ℝ)
    (S : Matrix (Fin ny) (Fin ny) ℝ) (hS : Sᵀ = S) (m : Fin nx → ℝ) (L : Matrix (Fin nx) (Fin nx) ℝ)
    (hL : ∀ i j, i < j → L i j = 0) (hd : ∀ i, 0 < L i i) (rule : Rule nx N) (hrule : MatchesMoments rule) :
    conditionalMoments qr ch (fun z => F *ᵥ z + c) (fun _ => S) m (L * Lᵀ) rule "covariance" =
      some (F, c, (∑ k, (rule.getSigmaPoints m L).wc k) • S) := by
  obtain ⟨x, hx⟩ : ∃ x, x = rule.getSigmaPoints m L := ⟨_, rfl⟩
  obtain ⟨hsum, hmean, hcov⟩ := hrule m L
  rw [← hx] at hsum hmean hcov ⊢
  obtain ⟨h1, h2, h3⟩ := affine_moments hsum hmean hcov F c _ rfl
  have hP := gram_isUnit_det hL fun i => (hd i).ne'
  have hA : F = slrA x (fun z => F *ᵥ z + c) (L * Lᵀ) := by
    rw [slrA, h2, ← Matrix.mul_assoc, Matrix.nonsing_inv_mul _ hP, Matrix.one_mul, Matrix.transpose_transpose]
  have := covMode_eq qr ch (fun z => F *ᵥ z + c) (fun _ => S) m hL hd rule x hx F hA _ rfl
  rw [this, h1, h3, add_sub_cancel_left, add_sub_cancel_left, ← Finset.sum_smul, Matrix.transpose_smul, hS]
  congr 3
  module

/-- **C41** for a rule whose covariance weights sum to one, covariance mode. -/
theorem slr_affine_exact_partial (qr : QR) (ch : Cholesky) (F : Matrix (Fin ny) (Fin nx) ℝ) (c : Fin ny → ℝ)
    (S : Matrix (Fin ny) (Fin ny) ℝ) (hS : Sᵀ = S) (m : Fin nx → ℝ) (P : Matrix (Fin nx) (Fin nx) ℝ)
    (hP : P.PosDef) (rule : Rule nx N) (hrule : MatchesMoments rule)
    (hw : ∀ m L, ∑ k, (rule.getSigmaPoints m L).wc k = 1) :
    functional qr ch (fun z => F *ᵥ z + c) S m P rule "covariance" = some (F, c, S) := by
  obtain ⟨L, -, hL, hd, rfl⟩ := ch.posDef P hP
  rw [functional, slr_affine qr ch F c S hS m L hL hd rule hrule, hw, one_smul]

/-- **C41** for a rule whose covariance weights are non-negative and sum to one, square-root mode. -/
theorem slr_affine_exact_sqrt_partial (qr : QR) (ch : Cholesky) (F : Matrix (Fin ny) (Fin nx) ℝ) (c : Fin ny → ℝ)
    (S : Matrix (Fin ny) (Fin ny) ℝ) (hS : S.det ≠ 0) (m : Fin nx → ℝ) (L : Matrix (Fin nx) (Fin nx) ℝ)
    (hL : ∀ i j, i < j → L i j = 0) (hd : ∀ i, 0 < L i i) (rule : Rule nx N) (hrule : MatchesMoments rule)
    (hw : ∑ k, (rule.getSigmaPoints m L).wc k = 1) (hw0 : ∀ k, 0 ≤ (rule.getSigmaPoints m L).wc k)
    (mode : String) (hm : mode ≠ "covariance") :
    ∃ C, functional qr ch (fun z => F *ᵥ z + c) S m L rule mode = some (F, c, C) ∧ (∀ i j, i < j → C i j = 0) ∧
      C * Cᵀ = S * Sᵀ := by
  have hpos : ∃ k, 0 < (rule.getSigmaPoints m L).wc k := by
    by_contra hne
    push Not at hne
    have : ∑ k, (rule.getSigmaPoints m L).wc k ≤ 0 := Finset.sum_nonpos fun k _ => hne k
    linarith
  obtain ⟨A, b, Q, C, h1, h2, h3, h4⟩ := modes_agree_of_noise qr ch (fun z => F *ᵥ z + c) (fun _ => S)
    (fun _ => hS) m L hL hd rule hrule hw0 hpos mode hm
  rw [slr_affine qr ch F c (S * Sᵀ) (gram_symm S) m L hL hd rule hrule, hw, one_smul] at h1
  obtain ⟨rfl, rfl, rfl⟩ : F = A ∧ c = b ∧ S * Sᵀ = Q := by simpa using h1
  exact ⟨C, h2, h3, h4⟩

theorem cubature_wc (hn : 0 < n) (m : Fin n → ℝ) (L : Matrix (Fin n) (Fin n) ℝ) :
    ∑ k, ((cubature n).getSigmaPoints m L).wc k = 1 ∧ ∀ k, 0 ≤ ((cubature n).getSigmaPoints m L).wc k :=
  ⟨(cubature_moments hn m L).1, fun k => by
    change (0 : ℝ) ≤ 1 / (2 * n)
    positivity⟩

theorem gaussHermite_wc {order : ℕ} (h : Hermegauss order) (ho : 2 ≤ order) (m : Fin n → ℝ)
    (L : Matrix (Fin n) (Fin n) ℝ) : ∑ k, ((gaussHermite h n).getSigmaPoints m L).wc k = 1 ∧
      ∀ k, 0 ≤ ((gaussHermite h n).getSigmaPoints m L).wc k :=
  ⟨(gaussHermite_moments h ho m L).1, fun k => by
    change 0 ≤ (∏ i, productRow h.w n k i) / Real.sqrt (2 * Real.pi) ^ n
    have : 0 ≤ ∏ i, productRow h.w n k i := Finset.prod_nonneg fun i _ => (h.pos _).le
    positivity⟩

/-- **C41**, cubature. -/
theorem cubature_affine_exact (hn : 0 < nx) (qr : QR) (ch : Cholesky) (F : Matrix (Fin ny) (Fin nx) ℝ)
    (c : Fin ny → ℝ) (S : Matrix (Fin ny) (Fin ny) ℝ) (hS : Sᵀ = S) (m : Fin nx → ℝ)
    (P : Matrix (Fin nx) (Fin nx) ℝ) (hP : P.PosDef) :
    functional qr ch (fun z => F *ᵥ z + c) S m P (cubature nx) "covariance" = some (F, c, S) :=
  slr_affine_exact_partial qr ch F c S hS m P hP _ (cubature_matches hn) fun m L => (cubature_wc hn m L).1

/-- **C41**, Gauss-Hermite of order at least two. -/
theorem gaussHermite_affine_exact {order : ℕ} (h : Hermegauss order) (ho : 2 ≤ order) (qr : QR) (ch : Cholesky)
    (F : Matrix (Fin ny) (Fin nx) ℝ) (c : Fin ny → ℝ) (S : Matrix (Fin ny) (Fin ny) ℝ) (hS : Sᵀ = S)
    (m : Fin nx → ℝ) (P : Matrix (Fin nx) (Fin nx) ℝ) (hP : P.PosDef) :
    functional qr ch (fun z => F *ᵥ z + c) S m P (gaussHermite h nx) "covariance" = some (F, c, S) :=
  slr_affine_exact_partial qr ch F c S hS m P hP _ (gaussHermite_matches h ho) fun m L => (gaussHermite_wc h ho m L).1

/-- **C41**, unscented: the noise covariance is multiplied by `2 - alpha ^ 2 + beta`. -/
theorem unscented_affine {alpha beta : ℝ} {kappa : Option ℝ} {r : Rule nx (1 + (nx + nx))}
    (hr : unscented nx alpha beta kappa = some r) (qr : QR) (ch : Cholesky) (F : Matrix (Fin ny) (Fin nx) ℝ)
    (c : Fin ny → ℝ) (S : Matrix (Fin ny) (Fin ny) ℝ) (hS : Sᵀ = S) (m : Fin nx → ℝ)
    (P : Matrix (Fin nx) (Fin nx) ℝ) (hP : P.PosDef) :
    functional qr ch (fun z => F *ᵥ z + c) S m P r "covariance" = some (F, c, (2 - alpha ^ 2 + beta) • S) := by
  obtain ⟨L, -, hL, hd, rfl⟩ := ch.posDef P hP
  rw [functional, slr_affine qr ch F c S hS m L hL hd r (unscented_matches hr), unscented_wc_sum hr]

/-- **C41 is false** of the unscented rule: with the default parameters the noise covariance of an affine model
comes back multiplied by `3.75`. -/
theorem unscented_default_inflates_noise (hn : 0 < nx) (qr : QR) (ch : Cholesky) (F : Matrix (Fin ny) (Fin nx) ℝ)
    (c : Fin ny → ℝ) (S : Matrix (Fin ny) (Fin ny) ℝ) (hS : Sᵀ = S) (hS0 : S ≠ 0) (m : Fin nx → ℝ)
    (P : Matrix (Fin nx) (Fin nx) ℝ) (hP : P.PosDef) :
    ∃ r, unscented nx (1 / 2) 2 none = some r ∧
      functional qr ch (fun z => F *ᵥ z + c) S m P r "covariance" = some (F, c, (15 / 4 : ℝ) • S) ∧
      functional qr ch (fun z => F *ᵥ z + c) S m P r "covariance" ≠ some (F, c, S) := by
  obtain ⟨r, hr⟩ := (unscented_isSome_iff nx (1 / 2) 2 none).mpr (by
    simp only [Option.getD_none]
    positivity)
  have h := unscented_affine hr qr ch F c S hS m P hP
  have e : (2 - (1 / 2 : ℝ) ^ 2 + 2) = 15 / 4 := by norm_num
  rw [e] at h
  refine ⟨r, hr, h, fun h2 => hS0 ?_⟩
  rw [h] at h2
  have h3 : (15 / 4 : ℝ) • S = S := by simpa using h2
  have h4 : (11 / 4 : ℝ) • S = 0 := by
    have : (11 / 4 : ℝ) • S = (15 / 4 : ℝ) • S - S := by module
    rw [this, h3, sub_self]
  exact (smul_eq_zero.mp h4).resolve_left (by norm_num)

/-- A contract for the Cholesky factorisation can be met. -/
theorem exists_cholesky : Nonempty Cholesky := by
  obtain ⟨qr⟩ := qr_exists
  have key : ∀ {n : ℕ} (A : Matrix (Fin n) (Fin n) ℝ), A.PosDef →
      ∃ L : Matrix (Fin n) (Fin n) ℝ, (∀ i j, i < j → L i j = 0) ∧ (∀ i, 0 < L i i) ∧ L * Lᵀ = A := by
    intro n A hA
    obtain ⟨k, v, hv⟩ := Matrix.posSemidef_iff_eq_sum_vecMulVec.mp hA.posSemidef
    obtain ⟨B, hBd⟩ : ∃ B : Matrix (Fin n) (Fin k) ℝ, B = Matrix.of fun i r => v r i := ⟨_, rfl⟩
    have hB : B * Bᵀ = A := by
      ext i j
      rw [hv, Matrix.mul_apply, Matrix.sum_apply, hBd]
      rfl
    obtain ⟨M, hM⟩ : ∃ M, M = triaSq qr (hcat B (0 : Matrix (Fin n) (Fin n) ℝ)) (Nat.le_add_left n k) := ⟨_, rfl⟩
    have hl : ∀ i j, i < j → M i j = 0 := by rw [hM]; exact triaSq_lower qr _ _
    have hg : M * Mᵀ = A := by rw [hM, triaSq_gram, hcat_gram, hB, Matrix.zero_mul, add_zero]
    have hd : ∀ i, M i i ≠ 0 := diag_ne_zero_of_posDef hl (by rw [hg]; exact hA)
    obtain ⟨s, hs⟩ : ∃ s : Fin n → ℝ, s = fun i => if 0 < M i i then 1 else -1 := ⟨_, rfl⟩
    have hs2 : ∀ i, s i * s i = 1 := fun i => by rw [hs]; simp only []; split_ifs <;> norm_num
    refine ⟨Matrix.of fun i j => M i j * s j, fun i j h => ?_, fun i => ?_, ?_⟩
    · rw [Matrix.of_apply, hl i j h, zero_mul]
    · rw [Matrix.of_apply, hs]
      simp only []
      split_ifs with h
      · rwa [mul_one]
      · have := lt_of_le_of_ne (not_lt.mp h) (hd i)
        linarith
    · rw [← hg]
      ext i j
      rw [Matrix.mul_apply, Matrix.mul_apply]
      refine Finset.sum_congr rfl fun l _ => ?_
      rw [Matrix.transpose_apply, Matrix.transpose_apply, Matrix.of_apply, Matrix.of_apply, mul_mul_mul_comm, hs2,
        mul_one]
  classical
  exact ⟨⟨fun {n} A => if h : A.PosDef then some (key A h).choose else none, fun {n} A hA =>
    ⟨(key A hA).choose, dif_pos hA, (key A hA).choose_spec⟩⟩⟩

/-! ## C44 fails for singular covariances -/

theorem downdate_to_singular (c d : ℝ) (hc : c * c = 1) (hd : d * d = 1) :
    choleskyUpdate (-1) !![c, 0; 0, d] ![1, 0] = 0 := by
  have hc0 : c ≠ 0 := by rintro rfl; norm_num at hc
  have hd0 : d ≠ 0 := by rintro rfl; norm_num at hd
  have h1 : (List.finRange 2) = [0, 1] := rfl
  have h2 : c⁻¹ * c⁻¹ = 1 := by rw [← mul_inv, hc, inv_one]
  have h3 : Fl.fin (-1) / Fl.fin 0 * Fl.fin 0 = Fl.nan := by
    change Fl.mul (Fl.div (.fin (-1)) (.fin 0)) (.fin 0) = _
    have : Fl.div (.fin (-1)) (.fin 0) = .ninf := by
      simp only [Fl.div, if_true, Fl.infOfSign]
      rw [if_neg (by norm_num), if_pos (by norm_num)]
    rw [this]
    simp [Fl.mul, Fl.infOfSign]
  have h4 : ∀ a : ℝ, Fl.fin a + Fl.nan = Fl.nan := fun _ => rfl
  have h5 : ∀ a : ℝ, Fl.fin a * Fl.nan = Fl.nan := fun _ => rfl
  ext i j
  fin_cases i <;> fin_cases j <;>
  simp [choleskyUpdate, h1, laxScan, cholUpdateBody, Fl.fin_mul, Fl.fin_add, Fl.fin_sub, Fl.fin_div, hc0, hd0, hc,
    hd, flSqrt, finiteOrZero, h2, h3, h4, h5]

/-- **C44 is false** for a singular covariance. With the cubature rule, one input and two outputs, of which the
first is the input without noise and the second is standard normal noise, the covariance mode returns the
residual covariance `diag(0, 1)` and the square-root mode returns the factor `0`: the noise of the second output
is lost without any sign of an error. -/
theorem modes_disagree (qr : QR) (ch : Cholesky) (mode : String) (hm : mode ≠ "covariance") :
    ∃ (f : (Fin 1 → ℝ) → Fin 2 → ℝ) (S : Matrix (Fin 2) (Fin 2) ℝ) (A : Matrix (Fin 2) (Fin 1) ℝ) (b : Fin 2 → ℝ),
      functional qr ch f (S * Sᵀ) 0 1 (cubature 1) "covariance" = some (A, b, !![0, 0; 0, 1]) ∧
      functional qr ch f S 0 1 (cubature 1) mode = some (A, b, 0) := by
  obtain ⟨F, hF⟩ : ∃ F : Matrix (Fin 2) (Fin 1) ℝ, F = !![1; 0] := ⟨_, rfl⟩
  obtain ⟨S, hSd⟩ : ∃ S : Matrix (Fin 2) (Fin 2) ℝ, S = !![0, 0; 0, 1] := ⟨_, rfl⟩
  have hSS : S * Sᵀ = !![0, 0; 0, 1] := by
    rw [hSd]
    ext i j
    rw [Matrix.mul_apply, Fin.sum_univ_two]
    fin_cases i <;> fin_cases j <;> simp [Matrix.transpose_apply]
  have hL : ∀ i j : Fin 1, i < j → (1 : Matrix (Fin 1) (Fin 1) ℝ) i j = 0 := fun i j h => Matrix.one_apply_ne h.ne
  have hd : ∀ i : Fin 1, 0 < (1 : Matrix (Fin 1) (Fin 1) ℝ) i i := fun i => by rw [Matrix.one_apply_eq]; norm_num
  have h11 : (1 : Matrix (Fin 1) (Fin 1) ℝ) * (1 : Matrix (Fin 1) (Fin 1) ℝ)ᵀ = 1 := by simp
  have hcov := cubature_affine_exact (by norm_num) qr ch F 0 (S * Sᵀ) (gram_symm S) 0 1 Matrix.PosDef.one
  rw [hSS] at hcov
  refine ⟨fun z => F *ᵥ z + 0, S, F, 0, by rw [hSS]; exact hcov, ?_⟩
  obtain ⟨x, hx⟩ : ∃ x, x = (cubature 1).getSigmaPoints 0 1 := ⟨_, rfl⟩
  obtain ⟨hsum, hmean, hcv⟩ := cubature_matches (n := 1) (by norm_num) 0 1
  rw [← hx] at hsum hmean hcv
  obtain ⟨a1, a2, a3⟩ := affine_moments hsum hmean hcv F 0 _ rfl
  have hA : F = slrA x (fun z => F *ᵥ z + 0) (1 * 1ᵀ) := by
    rw [slrA, a2, h11, inv_one, Matrix.one_mul, Matrix.one_mul, Matrix.transpose_transpose]
  have hw := cubature_wc (n := 1) (by norm_num) 0 1
  rw [← hx] at hw
  obtain ⟨C, c1, c2, c3⟩ := sqrtMode_eq qr ch (fun z => F *ᵥ z + 0) (fun _ => S) 0 hL (fun i => (hd i).ne')
    (cubature 1) x hx (by norm_num) hw.2 F hA mode hm
  rw [a3, ← Finset.sum_smul, hw.1, one_smul, h11, Matrix.mul_one, hSS] at c2
  have hFF : F * Fᵀ + !![0, 0; 0, 1] = 1 := by
    rw [hF]
    ext i j
    rw [Matrix.add_apply, Matrix.mul_apply, Fin.sum_univ_one]
    fin_cases i <;> fin_cases j <;> simp [Matrix.transpose_apply]
  rw [hFF] at c2
  have e := fun i j => congrFun (congrFun c2 i) j
  simp only [Matrix.mul_apply, Matrix.transpose_apply, Fin.sum_univ_two] at e
  have h01 := c1 0 1 (by decide)
  have e00 := e 0 0
  have e10 := e 1 0
  have e11 := e 1 1
  simp only [h01, mul_zero, add_zero, Matrix.one_apply_eq, Matrix.one_apply, one_ne_zero, if_false] at e00 e10 e11
  have h00 : C 0 0 ≠ 0 := fun h => by rw [h] at e00; norm_num at e00
  have h10 : C 1 0 = 0 := (mul_eq_zero.mp e10).resolve_right h00
  rw [h10, mul_zero, zero_add] at e11
  have hC : C = !![C 0 0, 0; 0, C 1 1] := by
    ext i j
    fin_cases i <;> fin_cases j <;> simp [h01, h10]
  rw [functional, c3, a1]
  have hrow : (fun (r : Fin 1) (i : Fin 2) => (F * (1 : Matrix (Fin 1) (Fin 1) ℝ))ᵀ r i) = fun _ => ![1, 0] := by
    funext r i
    rw [Matrix.mul_one, hF]
    fin_cases r
    fin_cases i <;> simp
  have hup : choleskyUpdateMany C (F * (1 : Matrix (Fin 1) (Fin 1) ℝ))ᵀ (-1) = 0 := by
    unfold choleskyUpdateMany
    rw [hrow, hC]
    exact downdate_to_singular _ _ e00 e11
  rw [hup]
  simp

/-! ## Negative weights -/

/-- **C44** (restriction). `SigmaPoints.sqrt` is NaN exactly when some covariance weight is negative. -/
theorem sqrt_nan_iff (qr : QR) (s : SigmaPoints N n) : s.sqrt qr = none ↔ ∃ k, s.wc k < 0 := by
  unfold SigmaPoints.sqrt
  split_ifs with h
  · refine ⟨fun h' => absurd h' (by simp), fun ⟨k, hk⟩ => absurd (h k) (not_le.mpr hk)⟩
  · push Not at h
    exact ⟨fun _ => h, fun _ => rfl⟩

/-- The covariance weights of the unscented rule are non-negative with the default parameters. -/
theorem unscented_default_wc_nonneg {r : Rule n (1 + (n + n))} (hr : unscented n (1 / 2) 2 none = some r)
    (m : Fin n → ℝ) (L : Matrix (Fin n) (Fin n) ℝ) (k : Fin (1 + (n + n))) : 0 ≤ (r.getSigmaPoints m L).wc k := by
  obtain ⟨lam, hlam, h, he⟩ := unscented_eq hr m L
  simp only [Option.getD_none] at hlam
  rw [he]
  change 0 ≤ Fin.append (fun _ : Fin 1 => lam / (n + lam) + (1 - (1 / 2) ^ 2 + 2)) (fun _ => 1 / (2 * (n + lam))) k
  refine Fin.addCases (fun k => ?_) (fun k => ?_) k
  · rw [Fin.append_left]
    have hl : lam = 3 / 4 - n / 2 := by rw [hlam, unscentedLambda]; ring
    have : -1 ≤ lam / (n + lam) := by
      rw [le_div_iff₀ h, hl]
      have : (0 : ℝ) ≤ n := Nat.cast_nonneg n
      linarith
    linarith
  · rw [Fin.append_right]
    positivity

/-- With the classical choice `alpha = 1e-3`, `beta = 2`, `kappa = 0` the first weight is negative in every
dimension, so `SigmaPoints.sqrt`, and with it the square-root mode, is NaN. -/
theorem unscented_classical_sqrt_nan (qr : QR) (hn : 0 < n) (m : Fin n → ℝ) (L : Matrix (Fin n) (Fin n) ℝ) :
    ∃ r, unscented n (1 / 1000) 2 (some 0) = some r ∧ (r.getSigmaPoints m L).sqrt qr = none := by
  have hn' : (1 : ℝ) ≤ n := by exact_mod_cast hn
  obtain ⟨r, hr⟩ := (unscented_isSome_iff n (1 / 1000) 2 (some 0)).mpr (by
    simp only [Option.getD_some]
    positivity)
  refine ⟨r, hr, (sqrt_nan_iff qr _).mpr ⟨Fin.castAdd _ 0, ?_⟩⟩
  obtain ⟨lam, hlam, h, he⟩ := unscented_eq hr m L
  rw [he]
  change Fin.append (fun _ : Fin 1 => lam / (n + lam) + (1 - (1 / 1000) ^ 2 + 2))
    (fun _ : Fin (n + n) => 1 / (2 * (n + lam))) (Fin.castAdd (n + n) 0) < 0
  rw [Fin.append_left]
  have hl : lam = (1 / 1000000 - 1) * n := by rw [hlam, Option.getD_some, unscentedLambda]; ring
  have : lam / (n + lam) ≤ -10 := by
    rw [div_le_iff₀ h, hl]
    nlinarith
  linarith

/-! ## The hypotheses can be met -/

/-- C44 and C69 apply to the cubature rule with any conditional mean and unit noise. -/
example (qr : QR) (ch : Cholesky) (f : (Fin 3 → ℝ) → Fin 2 → ℝ) (m : Fin 3 → ℝ) :
    ∃ A b Q C, conditionalMoments qr ch f (fun _ => 1 * 1ᵀ) m (1 * 1ᵀ) (cubature 3) "covariance" = some (A, b, Q) ∧
      conditionalMoments qr ch f (fun _ => 1) m 1 (cubature 3) "sqrt" = some (A, b, C) ∧
      (∀ i j, i < j → C i j = 0) ∧ C * Cᵀ = Q :=
  modes_agree_of_noise qr ch f (fun _ => 1) (fun _ => by simp) m 1 (fun i j h => Matrix.one_apply_ne h.ne)
    (fun i => by rw [Matrix.one_apply_eq]; norm_num) (cubature 3) (cubature_matches (by norm_num))
    (cubature_wc (by norm_num) m 1).2
    ⟨0, by change (0 : ℝ) < 1 / (2 * (3 : ℕ)); norm_num⟩ "sqrt" (by decide)

/-- Contracts for the factorisations exist. -/
example : Nonempty QR ∧ Nonempty Cholesky ∧ Nonempty (Hermegauss 2) :=
  ⟨qr_exists, exists_cholesky, exists_hermegauss_two⟩

end

end Cuthbert.Quadrature
