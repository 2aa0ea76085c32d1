import Verif.Model.Linalg
import Mathlib.Analysis.InnerProductSpace.GramSchmidtOrtho
import Mathlib.Analysis.InnerProductSpace.PiL2
import Mathlib.LinearAlgebra.Matrix.Block

/-! # Lemmas about the linear algebra model -/

namespace Cuthbert
open Matrix

variable {n k : ℕ}

theorem nanSum_some {f : Fin k → Option ℝ} {g : Fin k → ℝ} (h : ∀ i, f i = some (g i)) :
    nanSum f = some (∑ i, g i) := by
  have : f = fun i => some (g i) := funext h
  subst this
  simp [nanSum]

theorem nanMatMul_some {a b c : ℕ} {A : Fin a → Fin b → Option ℝ} {B : Fin b → Fin c → Option ℝ}
    {A' : Matrix (Fin a) (Fin b) ℝ} {B' : Matrix (Fin b) (Fin c) ℝ} (hA : ∀ i k, A i k = some (A' i k))
    (hB : ∀ k j, B k j = some (B' k j)) (i j) : nanMatMul A B i j = some ((A' * B') i j) := by
  rw [Matrix.mul_apply]
  exact nanSum_some fun k => by rw [hA, hB]; rfl

theorem nanMatVec_some {a b : ℕ} {A : Fin a → Fin b → Option ℝ} {v : Fin b → Option ℝ}
    {A' : Matrix (Fin a) (Fin b) ℝ} {v' : Fin b → ℝ} (hA : ∀ i k, A i k = some (A' i k))
    (hv : ∀ k, v k = some (v' k)) (i) : nanMatVec A v i = some ((A' *ᵥ v') i) :=
  nanSum_some fun k => by rw [hA, hv]; rfl

theorem tria_gram (qr : QR) (A : Matrix (Fin n) (Fin k) ℝ) : tria qr A * (tria qr A)ᵀ = A * Aᵀ := by
  unfold tria
  have h := qr.factor Aᵀ
  have : A * Aᵀ = (Aᵀ)ᵀ * Aᵀ := by rw [Matrix.transpose_transpose]
  rw [this]
  conv_rhs => rw [← h]
  rw [Matrix.transpose_mul, Matrix.transpose_transpose, Matrix.mul_assoc,
    ← Matrix.mul_assoc (qr.q Aᵀ)ᵀ, qr.orthonormal, Matrix.one_mul]

theorem tria_lower (qr : QR) (A : Matrix (Fin n) (Fin k) ℝ) (i : Fin n) (j : Fin (min k n))
    (h : i.val < j.val) : tria qr A i j = 0 := qr.upper Aᵀ j i h

theorem triaSq_gram (qr : QR) (A : Matrix (Fin n) (Fin k) ℝ) (h : n ≤ k) :
    triaSq qr A h * (triaSq qr A h)ᵀ = A * Aᵀ := by
  rw [← tria_gram qr A]
  unfold triaSq
  rw [Matrix.transpose_submatrix]
  ext i j
  simp only [Matrix.mul_apply, Matrix.submatrix_apply, id, Matrix.transpose_apply]
  exact Equiv.sum_comp (finCongr (min_eq_right h).symm) (fun x => tria qr A i x * tria qr A j x)

theorem triaSq_lower (qr : QR) (A : Matrix (Fin n) (Fin k) ℝ) (h : n ≤ k) (i j : Fin n)
    (hij : i < j) : triaSq qr A h i j = 0 :=
  tria_lower qr A i _ hij

/-- Lower triangular. -/
def IsLower (L : Matrix (Fin n) (Fin n) ℝ) : Prop := ∀ i j, i < j → L i j = 0

theorem lowerPart_eq {L : Matrix (Fin n) (Fin n) ℝ} (h : IsLower L) : lowerPart L = L := by
  ext i j
  unfold lowerPart
  rw [Matrix.of_apply]
  split_ifs with hij
  · rfl
  · exact (h i j (not_le.mp hij)).symm

theorem IsLower.det {L : Matrix (Fin n) (Fin n) ℝ} (h : IsLower L) : L.det = ∏ i, L i i :=
  Matrix.det_of_isLowerTriangular L fun i j hij => h i j hij

theorem IsLower.det_ne_zero_iff {L : Matrix (Fin n) (Fin n) ℝ} (h : IsLower L) :
    L.det ≠ 0 ↔ ∀ i, L i i ≠ 0 := by
  rw [h.det, Finset.prod_ne_zero_iff]; simp

theorem IsLower.diag_ne_zero_iff_gram {L : Matrix (Fin n) (Fin n) ℝ} (h : IsLower L) :
    (∀ i, L i i ≠ 0) ↔ (L * Lᵀ).det ≠ 0 := by
  rw [← h.det_ne_zero_iff, Matrix.det_mul, Matrix.det_transpose, mul_self_ne_zero]

theorem hcat_gram {a c d : ℕ} (A : Matrix (Fin a) (Fin c) ℝ) (B : Matrix (Fin a) (Fin d) ℝ) :
    hcat A B * (hcat A B)ᵀ = A * Aᵀ + B * Bᵀ := by
  unfold hcat
  rw [Matrix.transpose_submatrix, Matrix.submatrix_mul_equiv, Matrix.transpose_fromCols,
    Matrix.fromCols_mul_fromRows, Matrix.submatrix_id_id]

section blocks
variable {a b c d : ℕ} (A : Matrix (Fin a) (Fin c) ℝ) (B : Matrix (Fin a) (Fin d) ℝ)
  (C : Matrix (Fin b) (Fin c) ℝ) (D : Matrix (Fin b) (Fin d) ℝ)

theorem block_gram : block A B C D * (block A B C D)ᵀ =
    block (A * Aᵀ + B * Bᵀ) (A * Cᵀ + B * Dᵀ) (C * Aᵀ + D * Bᵀ) (C * Cᵀ + D * Dᵀ) := by
  unfold block
  simp only [Matrix.reindex_apply, Matrix.transpose_submatrix, Matrix.submatrix_mul_equiv,
    Matrix.fromBlocks_transpose, Matrix.fromBlocks_multiply]

theorem block_castAdd_castAdd (i j) : block A B C D (Fin.castAdd b i) (Fin.castAdd d j) = A i j := by
  simp [block]

theorem block_castAdd_natAdd (i j) : block A B C D (Fin.castAdd b i) (Fin.natAdd c j) = B i j := by
  simp [block]

theorem block_natAdd_castAdd (i j) : block A B C D (Fin.natAdd a i) (Fin.castAdd d j) = C i j := by
  simp [block]

theorem block_natAdd_natAdd (i j) : block A B C D (Fin.natAdd a i) (Fin.natAdd c j) = D i j := by
  simp [block]

end blocks

theorem eq_block_of_lower {a b : ℕ} {L : Matrix (Fin (a + b)) (Fin (a + b)) ℝ} (h : IsLower L) :
    L = block (topLeft L) 0 (bottomLeft L) (bottomRight L) := by
  ext i j
  refine Fin.addCases (fun i => ?_) (fun i => ?_) i <;>
    refine Fin.addCases (fun j => ?_) (fun j => ?_) j
  · rw [block_castAdd_castAdd]; rfl
  · rw [block_castAdd_natAdd]
    apply h
    rw [Fin.lt_def, Fin.val_castAdd, Fin.val_natAdd]
    omega
  · rw [block_natAdd_castAdd]; rfl
  · rw [block_natAdd_natAdd]; rfl

theorem isLower_topLeft {a b : ℕ} {L : Matrix (Fin (a + b)) (Fin (a + b)) ℝ} (h : IsLower L) :
    IsLower (topLeft L) := fun i j hij => h _ _ (by
    rw [Fin.lt_def] at hij ⊢; simpa using hij)

theorem isLower_bottomRight {a b : ℕ} {L : Matrix (Fin (a + b)) (Fin (a + b)) ℝ} (h : IsLower L) :
    IsLower (bottomRight L) := fun i j hij => h _ _ (by
    rw [Fin.lt_def] at hij ⊢; simpa using hij)

/-- The defining equations of the blocks of `tria([[A, B], [C, D]])`. -/
theorem triaSq_block_eqs (qr : QR) {a b c d : ℕ} (A : Matrix (Fin a) (Fin c) ℝ)
    (B : Matrix (Fin a) (Fin d) ℝ) (C : Matrix (Fin b) (Fin c) ℝ) (D : Matrix (Fin b) (Fin d) ℝ)
    (h : a + b ≤ c + d) (L : Matrix (Fin (a + b)) (Fin (a + b)) ℝ)
    (hL : L = triaSq qr (block A B C D) h) :
    topLeft L * (topLeft L)ᵀ = A * Aᵀ + B * Bᵀ ∧
    bottomLeft L * (topLeft L)ᵀ = C * Aᵀ + D * Bᵀ ∧
    bottomLeft L * (bottomLeft L)ᵀ + bottomRight L * (bottomRight L)ᵀ = C * Cᵀ + D * Dᵀ ∧
    IsLower (topLeft L) ∧ IsLower (bottomRight L) := by
  have hlow : IsLower L := by subst hL; exact triaSq_lower qr _ h
  have hg := triaSq_gram qr (block A B C D) h
  rw [← hL, block_gram] at hg
  rw [eq_block_of_lower hlow, block_gram] at hg
  refine ⟨?_, ?_, ?_, isLower_topLeft hlow, isLower_bottomRight hlow⟩
  · ext i j
    have := congrFun (congrFun hg (Fin.castAdd b i)) (Fin.castAdd b j)
    rw [block_castAdd_castAdd, block_castAdd_castAdd] at this
    simpa using this
  · ext i j
    have := congrFun (congrFun hg (Fin.natAdd a i)) (Fin.castAdd b j)
    rw [block_natAdd_castAdd, block_natAdd_castAdd] at this
    simpa using this
  · ext i j
    have := congrFun (congrFun hg (Fin.natAdd a i)) (Fin.natAdd a j)
    rw [block_natAdd_natAdd, block_natAdd_natAdd] at this
    simpa using this

/-! ## Existence of a QR decomposition -/

theorem exists_qr (B : Matrix (Fin k) (Fin n) ℝ) :
    ∃ (q : Matrix (Fin k) (Fin (min k n)) ℝ) (r : Matrix (Fin (min k n)) (Fin n) ℝ),
      qᵀ * q = 1 ∧ q * r = B ∧ ∀ i j, j.val < i.val → r i j = 0 := by
  let col : Fin n → EuclideanSpace ℝ (Fin k) := fun j => WithLp.toLp 2 fun i => B i j
  let f : Fin k → EuclideanSpace ℝ (Fin k) := fun j => if h : j.val < n then col ⟨j.val, h⟩ else 0
  have hcard : Module.finrank ℝ (EuclideanSpace ℝ (Fin k)) = Fintype.card (Fin k) := by simp
  let b := InnerProductSpace.gramSchmidtOrthonormalBasis hcard f
  let e : Fin (min k n) → Fin k := Fin.castLE (min_le_left k n)
  have hrep : ∀ (j : Fin n) (i : Fin k), B i j = ∑ l, inner ℝ (b l) (col j) * b l i := by
    intro j i
    have := b.sum_repr (col j)
    have h2 := congrArg (fun v : EuclideanSpace ℝ (Fin k) => v.ofLp i) this
    simp only [OrthonormalBasis.repr_apply_apply, WithLp.ofLp_sum, Finset.sum_apply,
      WithLp.ofLp_smul, Pi.smul_apply, smul_eq_mul] at h2
    exact h2.symm
  have hz : ∀ (l : Fin k) (j : Fin n), j.val < l.val → inner ℝ (b l) (col j) = 0 := by
    intro l j hlj
    have hjk : j.val < k := lt_trans hlj l.isLt
    have hcol : f ⟨j.val, hjk⟩ = col j := by simp [f]
    have := InnerProductSpace.gramSchmidtOrthonormalBasis_inv_triangular hcard f
      (i := ⟨j.val, hjk⟩) (j := l) hlj
    rw [hcol] at this
    exact this
  refine ⟨Matrix.of fun i l => (b (e l)).ofLp i,
    Matrix.of fun l j => inner ℝ (b (e l)) (col j), ?_, ?_, ?_⟩
  · ext l m
    rw [Matrix.mul_apply]
    simp only [Matrix.transpose_apply, Matrix.of_apply]
    have h1 : ∑ i, b (e l) i * b (e m) i = inner ℝ (b (e m)) (b (e l)) := by
      rw [PiLp.inner_apply]; rfl
    rw [h1, OrthonormalBasis.inner_eq_ite, Matrix.one_apply]
    by_cases hlm : l = m
    · subst hlm; simp
    · rw [if_neg hlm, if_neg]
      intro h; exact hlm (Fin.castLE_injective _ h).symm
  · ext i j
    rw [Matrix.mul_apply, hrep j i]
    simp only [Matrix.of_apply]
    -- the rows beyond `n` vanish
    have hsub : ∑ l : Fin (min k n), b (e l) i * inner ℝ (b (e l)) (col j) =
        ∑ l ∈ Finset.univ.image e, inner ℝ (b l) (col j) * b l i := by
      rw [Finset.sum_image (fun x _ y _ h => Fin.castLE_injective _ h)]
      exact Finset.sum_congr rfl fun l _ => mul_comm _ _
    rw [hsub]
    refine Finset.sum_subset (Finset.subset_univ _) fun l _ hl => ?_
    have hln : ¬ l.val < n := by
      intro hln
      apply hl
      rw [Finset.mem_image]
      exact ⟨⟨l.val, lt_min l.isLt hln⟩, Finset.mem_univ _, rfl⟩
    rw [hz l j (by omega), zero_mul]
  · intro i j hij
    exact hz (e i) j hij

/-- The contract `QR` can be met. -/
theorem qr_exists : Nonempty QR := by
  choose q r h1 h2 h3 using fun (k n : ℕ) (B : Matrix (Fin k) (Fin n) ℝ) => exists_qr B
  exact ⟨⟨fun {k n} B => q k n B, fun {k n} B => r k n B, fun B => h1 _ _ B, fun B => h2 _ _ B,
    fun B => h3 _ _ B⟩⟩

/-! ## Sorting flags -/

theorem stableArgsort_monotone (flag : Fin n → Bool) : Monotone (flag ∘ stableArgsort flag) :=
  Tuple.monotone_sort flag

theorem stableArgsort_stable (flag : Fin n → Bool) (i j : Fin n) (hij : i < j)
    (h : flag (stableArgsort flag i) = flag (stableArgsort flag j)) :
    stableArgsort flag i < stableArgsort flag j :=
  (Tuple.eq_sort_iff.mp (rfl : stableArgsort flag = Tuple.sort flag)).2 i j hij h

theorem stableArgsort_false : stableArgsort (fun _ : Fin n => false) = Equiv.refl _ :=
  Tuple.sort_eq_refl_iff_monotone.mpr monotone_const

theorem stableArgsort_const (b : Bool) : stableArgsort (fun _ : Fin n => b) = Equiv.refl _ :=
  Tuple.sort_eq_refl_iff_monotone.mpr monotone_const

/-- A row of a matrix with vanishing Gram diagonal entry vanishes. -/
theorem row_eq_zero_of_gram {κ : Type*} [Fintype κ] {m : Type*} [Fintype m]
    (L : Matrix m κ ℝ) (i : m) (h : (L * Lᵀ) i i = 0) (j : κ) : L i j = 0 := by
  rw [Matrix.mul_apply] at h
  have := (Finset.sum_eq_zero_iff_of_nonneg
    (fun j _ => by rw [Matrix.transpose_apply]; exact mul_self_nonneg (L i j))).mp h j
    (Finset.mem_univ j)
  exact mul_self_eq_zero.mp this

end Cuthbert
