import Verif.Lemmas.Linalg
import Mathlib.Analysis.Matrix.Spectrum
import Mathlib.Tactic.FinCases
import Mathlib.Tactic.NormNum

/-!
# Properties C15 - C19: square roots

Everything holds for every QR routine and every symmetric SVD routine that meets its contract;
`qr_exists` and `svd_exists` show that such routines exist.
-/

namespace Cuthbert
open Matrix

variable {n k : ℕ}

/-! ## C15 -/

/-- **C15.** `tria(A)` is lower triangular (trapezoidal) and a square root of `A Aᵀ`, for every matrix
of every shape and rank. -/
theorem tria_is_lower_sqrt (qr : QR) (A : Matrix (Fin n) (Fin k) ℝ) :
    tria qr A * (tria qr A)ᵀ = A * Aᵀ ∧
      ∀ (i : Fin n) (j : Fin (min k n)), i.val < j.val → tria qr A i j = 0 :=
  ⟨tria_gram qr A, tria_lower qr A⟩

/-- Non-vacuity for C15: a routine meeting the QR contract exists. -/
example : Nonempty QR := qr_exists

/-! ## C16 -/

/-- **C16.** For `0 < size` and `start + size ≤ n`, `marginal_sqrt_cov` returns a lower-triangular square
root of the diagonal block `[start : start + size]` of `chol cholᵀ`. -/
theorem marginal_sqrt_cov_correct (qr : QR) (chol : Matrix (Fin n) (Fin n) ℝ) (start size : ℕ)
    (h0 : 0 < size) (h : start + size ≤ n) :
    ∃ B, marginalSqrtCov qr chol start size = .ok B ∧ (∀ i j, i < j → B i j = 0) ∧
      ∀ i j : Fin size, (B * Bᵀ) i j =
        (chol * cholᵀ) ⟨start + i, by omega⟩ ⟨start + j, by omega⟩ := by
  have hs : size ≤ n := by omega
  have hmin : min start (n - size) = start := by omega
  refine ⟨_, by rw [marginalSqrtCov, if_neg (by omega), dif_pos hs], triaSq_lower qr _ hs, ?_⟩
  intro i j
  rw [triaSq_gram]
  simp only [Matrix.mul_apply, Matrix.submatrix_apply, Matrix.transpose_apply, id, hmin]

/-- **C16** (rejection). A zero size is rejected by an assertion and a size larger than the matrix by
JAX. -/
theorem marginal_sqrt_cov_rejects (qr : QR) (chol : Matrix (Fin n) (Fin n) ℝ) (start size : ℕ) :
    (size = 0 → marginalSqrtCov qr chol start size = .error .assertionError) ∧
      (n < size → marginalSqrtCov qr chol start size = .error .typeError) := by
  constructor
  · intro h; rw [marginalSqrtCov, if_pos h]
  · intro h; rw [marginalSqrtCov, if_neg (by omega), dif_neg (by omega)]

/-- **C16** (limit of the rejection). An out-of-range `start` is not rejected: the last block is returned
instead. -/
theorem marginal_sqrt_cov_clamps (qr : QR) (chol : Matrix (Fin n) (Fin n) ℝ) (start size : ℕ)
    (h0 : 0 < size) (h : size ≤ n) (hout : n < start + size) :
    marginalSqrtCov qr chol start size = marginalSqrtCov qr chol (n - size) size := by
  have h1 : min start (n - size) = n - size := by omega
  rw [marginalSqrtCov, marginalSqrtCov, if_neg (by omega), if_neg (by omega), dif_pos h, dif_pos h]
  simp only [h1, min_self]

theorem mapM_range_ok {α : Type*} (f : ℕ → Except Err α) (g : ℕ → α) (m : ℕ)
    (h : ∀ i, i < m → f i = .ok (g i)) : (List.range m).mapM f = .ok ((List.range m).map g) := by
  have : ∀ l : List ℕ, (∀ i ∈ l, f i = .ok (g i)) → l.mapM f = .ok (l.map g) := by
    intro l
    induction l with
    | nil => intro _; rfl
    | cons x l ih =>
      intro hl
      rw [List.mapM_cons, hl x (by simp), ih fun i hi => hl i (by simp [hi])]
      rfl
  exact this _ fun i hi => h i (List.mem_range.mp hi)

/-- **C16** (blocks). If `subdim` divides `n`, `block_marginal_sqrt_cov` returns `n / subdim` lower-triangular
factors, the `i`-th one for the block starting at `i * subdim`. -/
theorem block_marginal_sqrt_cov_correct (qr : QR) (chol : Matrix (Fin n) (Fin n) ℝ) (subdim : ℕ)
    (h0 : 0 < subdim) (h : n % subdim = 0) :
    ∃ Bs, blockMarginalSqrtCov qr chol subdim = .ok Bs ∧ Bs.length = n / subdim ∧
      ∀ (i : ℕ) B, Bs[i]? = some B → (∀ a b, a < b → B a b = 0) ∧
        ∀ (a b : Fin subdim) (ha : i * subdim + a < n) (hb : i * subdim + b < n),
          (B * Bᵀ) a b = (chol * cholᵀ) ⟨i * subdim + a, ha⟩ ⟨i * subdim + b, hb⟩ := by
  have hle : ∀ i, i < n / subdim → i * subdim + subdim ≤ n := by
    intro i hi
    have h1 : (i + 1) * subdim ≤ n / subdim * subdim := Nat.mul_le_mul_right _ hi
    have h2 := Nat.div_mul_le_self n subdim
    rw [Nat.add_mul, Nat.one_mul] at h1
    omega
  have hex : ∀ i, i < n / subdim → ∃ B, marginalSqrtCov qr chol (i * subdim) subdim = .ok B :=
    fun i hi => (marginal_sqrt_cov_correct qr chol (i * subdim) subdim h0 (hle i hi)).imp
      fun _ hB => hB.1
  let g : ℕ → Matrix (Fin subdim) (Fin subdim) ℝ := fun i =>
    if hi : i < n / subdim then (hex i hi).choose else 0
  have hg : ∀ i, i < n / subdim → marginalSqrtCov qr chol (i * subdim) subdim = .ok (g i) := by
    intro i hi
    simp only [g, dif_pos hi]
    exact (hex i hi).choose_spec
  refine ⟨(List.range (n / subdim)).map g, ?_, by simp, ?_⟩
  · rw [blockMarginalSqrtCov, if_pos ⟨h0, h⟩]
    exact mapM_range_ok _ g _ hg
  · intro i B hB
    have hi : i < n / subdim := by
      by_contra hc
      rw [List.getElem?_eq_none (by simp; omega)] at hB
      cases hB
    have hBg : B = g i := by
      rw [List.getElem?_map, List.getElem?_range hi] at hB
      exact (Option.some.inj hB).symm
    obtain ⟨B', hB', hl, hgram⟩ := marginal_sqrt_cov_correct qr chol (i * subdim) subdim h0 (hle i hi)
    rw [hg i hi, Except.ok.injEq] at hB'
    subst hB'
    rw [hBg]
    exact ⟨hl, fun a b _ _ => hgram a b⟩

/-- **C16** (blocks, rejection). A `subdim` that is zero or does not divide `n` is rejected. -/
theorem block_marginal_sqrt_cov_rejects (qr : QR) (chol : Matrix (Fin n) (Fin n) ℝ) (subdim : ℕ)
    (h : subdim = 0 ∨ n % subdim ≠ 0) :
    blockMarginalSqrtCov qr chol subdim = .error .assertionError := by
  rw [blockMarginalSqrtCov, if_neg]
  rintro ⟨h1, h2⟩
  rcases h with h | h
  · omega
  · exact h h2

/-- Non-vacuity for C16: a 6 x 6 matrix has three blocks of size 2. -/
example : 0 < 2 ∧ 6 % 2 = 0 ∧ 6 / 2 = 3 := by decide

/-! ## C17 -/

/-- `1 / sqrt(2 π)` squared. -/
theorem missingScale_sq : missingScale * missingScale = 1 / (2 * Real.pi) := by
  unfold missingScale
  have : (0 : ℝ) ≤ 2 * Real.pi := by positivity
  rw [div_mul_div_comm, one_mul, Real.mul_self_sqrt this]

theorem missingScale_pos : 0 < missingScale := by
  unfold missingScale; positivity

/-- **C17** (order). The permutation applied puts the unflagged dimensions first and keeps the original
order within the unflagged and within the flagged ones. -/
theorem collect_nans_order (flag : Fin n → Bool) :
    (∀ i j, i ≤ j → flag (stableArgsort flag i) = true → flag (stableArgsort flag j) = true) ∧
      ∀ i j, i < j → flag (stableArgsort flag i) = flag (stableArgsort flag j) →
        stableArgsort flag i < stableArgsort flag j := by
  refine ⟨fun i j hij hi => ?_, stableArgsort_stable flag⟩
  have := stableArgsort_monotone flag hij
  simp only [Function.comp_apply, hi] at this
  exact top_le_iff.mp this

/-- The matrix returned by `collect_nans_chol` before the diagonal is replaced has vanishing rows and
columns at flagged positions. -/
theorem collectMat_apply (qr : QR) (flag : Fin n → Bool) (chol : Matrix (Fin n) (Fin n) ℝ) :
    ∃ L : Matrix (Fin n) (Fin n) ℝ, IsLower L ∧
      (∀ i j, (L * Lᵀ) i j = if flag (stableArgsort flag i) || flag (stableArgsort flag j) then 0
        else (chol * cholᵀ) (stableArgsort flag i) (stableArgsort flag j)) ∧
      (∀ i j, flag (stableArgsort flag i) = true → L i j = 0 ∧ L j i = 0) ∧
      ∀ i j, collectMat qr flag chol i j = if i = j then
        (if flag (stableArgsort flag i) then missingScale else L i i) else L i j := by
  let P : Matrix (Fin n) (Fin n) ℝ := Matrix.of fun i j =>
    if flag (stableArgsort flag i) then 0 else chol (stableArgsort flag i) j
  have hgram : ∀ i j, (P * Pᵀ) i j = if flag (stableArgsort flag i) || flag (stableArgsort flag j)
      then 0 else (chol * cholᵀ) (stableArgsort flag i) (stableArgsort flag j) := by
    intro i j
    simp only [Matrix.mul_apply, Matrix.transpose_apply, P, Matrix.of_apply]
    by_cases h1 : flag (stableArgsort flag i) <;> by_cases h2 : flag (stableArgsort flag j) <;>
      simp [h1, h2]
  have hl := triaSq_lower qr P le_rfl
  have hrow : ∀ i j, flag (stableArgsort flag i) = true → triaSq qr P le_rfl i j = 0 := by
    intro i j hi
    apply row_eq_zero_of_gram
    rw [triaSq_gram, hgram]
    simp [hi]
  refine ⟨triaSq qr P le_rfl, hl, fun i j => by rw [triaSq_gram, hgram], fun i j hi => ?_,
    fun i j => rfl⟩
  refine ⟨hrow i j hi, ?_⟩
  rcases lt_or_ge j i with hji | hij
  · exact hl j i hji
  · exact hrow j i ((collect_nans_order flag).1 i j hij hi)

/-- **C17** (covariance). The factor returned by `collect_nans_chol` for a matrix argument is lower
triangular; its covariance is the marginal covariance of the unflagged dimensions, in the new order,
variance `1/(2π)` for flagged dimensions, and zero between the two and among distinct flagged ones. -/
theorem collect_nans_cov (qr : QR) (flag : Fin n → Bool) (chol : Matrix (Fin n) (Fin n) ℝ) :
    (∀ i j, i < j → collectMat qr flag chol i j = 0) ∧
    ∀ i j, (collectMat qr flag chol * (collectMat qr flag chol)ᵀ) i j =
      if flag (stableArgsort flag i) || flag (stableArgsort flag j) then
        (if i = j then 1 / (2 * Real.pi) else 0)
      else (chol * cholᵀ) (stableArgsort flag i) (stableArgsort flag j) := by
  obtain ⟨L, hl, hg, hz, hC⟩ := collectMat_apply qr flag chol
  have hrow : ∀ i, flag (stableArgsort flag i) = true → ∀ j,
      collectMat qr flag chol i j = if i = j then missingScale else 0 := by
    intro i hi j
    rw [hC, hi, (hz i j hi).1]; rfl
  have hrow' : ∀ i, flag (stableArgsort flag i) = false → ∀ j,
      collectMat qr flag chol i j = L i j := by
    intro i hi j
    rw [hC, hi]
    by_cases hij : i = j
    · subst hij; simp
    · simp [hij]
  refine ⟨fun i j hij => ?_, fun i j => ?_⟩
  · rw [hC, if_neg hij.ne, hl i j hij]
  · rw [Matrix.mul_apply]
    simp only [Matrix.transpose_apply]
    rcases Bool.eq_false_or_eq_true (flag (stableArgsort flag i)) with hi | hi <;>
      rcases Bool.eq_false_or_eq_true (flag (stableArgsort flag j)) with hj | hj
    · simp only [hrow i hi, hrow j hj, hi, hj, Bool.or_self, if_true]
      by_cases hij : i = j
      · subst hij
        simp [missingScale_sq]
      · rw [if_neg hij]
        refine Finset.sum_eq_zero fun x _ => ?_
        by_cases h1 : i = x
        · subst h1; rw [if_neg (Ne.symm hij), mul_zero]
        · rw [if_neg h1, zero_mul]
    · simp only [hrow i hi, hrow' j hj, hi, hj, Bool.true_or, if_true]
      have hij : i ≠ j := by rintro rfl; rw [hi] at hj; cases hj
      rw [if_neg hij]
      refine Finset.sum_eq_zero fun x _ => ?_
      by_cases h1 : i = x
      · subst h1; rw [(hz i j hi).2, mul_zero]
      · rw [if_neg h1, zero_mul]
    · simp only [hrow' i hi, hrow j hj, hi, hj, Bool.or_true, if_true]
      have hij : i ≠ j := by rintro rfl; rw [hi] at hj; cases hj
      rw [if_neg hij]
      refine Finset.sum_eq_zero fun x _ => ?_
      by_cases h1 : j = x
      · subst h1; rw [(hz j i hj).2, zero_mul]
      · rw [if_neg h1, mul_zero]
    · simp only [hrow' i hi, hrow' j hj]
      have := hg i j
      rw [Matrix.mul_apply] at this
      simp only [Matrix.transpose_apply] at this
      rw [this, hi, hj]
      rfl

/-- **C17** (the other arguments, vectors of standard deviations, and errors). -/
theorem collect_nans_rest (qr : QR) (flag : Fin n → Bool) :
    (∀ {α : Type} [Zero α] (x : Fin n → α) i, collectRest flag x i =
        if flag (stableArgsort flag i) then 0 else x (stableArgsort flag i)) ∧
    (∀ (v : Fin n → ℝ) i, collectDiag flag v i =
        if flag (stableArgsort flag i) then 1 / Real.sqrt (2 * Real.pi)
        else v (stableArgsort flag i)) ∧
    (∀ M, collectNansChol qr (.vec flag) (.mat M) =
        .ok (.vec (flag ∘ stableArgsort flag), .mat (collectMat qr flag M))) ∧
    (∀ v, collectNansChol qr (.vec flag) (.diag v) =
        .ok (.vec (flag ∘ stableArgsort flag), .diag (collectDiag flag v))) ∧
    (∀ r, collectNansChol qr (.vec flag) (.scalar r) =
        .ok (.vec (flag ∘ stableArgsort flag), .diag (collectDiag flag fun _ => r))) ∧
    (∀ c : CholArg n, collectNansChol qr .batched c = .error .valueError) ∧
    (∀ f : FlagArg n, collectNansChol qr f .batched = .error .valueError) ∧
    (∀ c : CholArg n, (∀ M, c ≠ .mat M) → c ≠ .batched → collectNansChol qr (.scalar false) c = .ok (.scalar false, c)) ∧
    (∀ r, collectNansChol (n := n) qr (.scalar true) (.scalar r) = .ok (.scalar true, .scalar 0)) ∧
    (∀ v : Fin n → ℝ, collectNansChol qr (.scalar true) (.diag v) = .ok (.scalar true, .diag 0)) ∧
    (∀ b (M : Matrix (Fin n) (Fin n) ℝ), collectNansChol qr (.scalar b) (.mat M) = .error .valueError) := by
  refine ⟨fun _ _ => rfl, fun _ _ => rfl, fun _ => rfl, fun _ => rfl, fun _ => rfl, fun c => ?_,
    fun f => ?_, fun c h1 h2 => ?_, fun _ => rfl, fun _ => rfl, fun _ _ => rfl⟩
  · cases c <;> rfl
  · cases f <;> rfl
  · cases c with
    | mat M => exact absurd rfl (h1 M)
    | batched => exact absurd rfl h2
    | _ => rfl

/-- Non-vacuity for C17: with flags (true, false, true, false) the order is 1, 3, 0, 2. -/
example : (List.ofFn (stableArgsort ![true, false, true, false])) = [1, 3, 0, 2] := by
  have : stableArgsort ![true, false, true, false] =
      (⟨![1, 3, 0, 2], ![2, 0, 3, 1], by decide, by decide⟩ : Equiv.Perm (Fin 4)) := by
    refine (Tuple.eq_sort_iff.mpr ⟨?_, ?_⟩).symm <;> decide
  rw [this]; decide

/-! ## C18 -/

/-- The contract `SVD` can be met (spectral theorem). -/
theorem svd_exists : Nonempty SVD := by
  classical
  have key : ∀ (n : ℕ) (A : Matrix (Fin n) (Fin n) ℝ), ∃ (u : Matrix (Fin n) (Fin n) ℝ)
      (s sg : Fin n → ℝ), uᵀ * u = 1 ∧ (∀ i, 0 ≤ s i) ∧ Antitone s ∧
      (∀ i, sg i = 1 ∨ sg i = -1) ∧
      (A.IsSymm → u * Matrix.diagonal (fun i => sg i * s i) * uᵀ = A) := by
    intro n A
    by_cases hA : A.IsSymm
    · have hH : A.IsHermitian := by
        rw [Matrix.IsHermitian, Matrix.conjTranspose_eq_transpose_of_trivial]; exact hA
      let d := hH.eigenvalues
      let u : Matrix (Fin n) (Fin n) ℝ := hH.eigenvectorUnitary
      have hu : uᵀ * u = 1 := by
        have := Unitary.coe_star_mul_self hH.eigenvectorUnitary
        rwa [Matrix.star_eq_conjTranspose, Matrix.conjTranspose_eq_transpose_of_trivial] at this
      have hsp : u * Matrix.diagonal d * uᵀ = A := by
        have := hH.spectral_theorem
        rw [Unitary.conjStarAlgAut_apply, Matrix.star_eq_conjTranspose,
          Matrix.conjTranspose_eq_transpose_of_trivial] at this
        exact this.symm
      let σ := Tuple.sort fun i => -|d i|
      refine ⟨u.submatrix id σ, fun i => |d (σ i)|, fun i => if 0 ≤ d (σ i) then 1 else -1,
        ?_, fun i => abs_nonneg _, ?_, ?_, fun _ => ?_⟩
      · rw [Matrix.transpose_submatrix]
        ext i j
        have := congrFun (congrFun hu (σ i)) (σ j)
        simp only [Matrix.mul_apply, Matrix.submatrix_apply, id] at this ⊢
        rw [this]
        simp [Matrix.one_apply]
      · intro i j hij
        have := Tuple.monotone_sort (fun i => -|d i|) hij
        simp only [Function.comp_apply, neg_le_neg_iff] at this
        exact this
      · intro i; dsimp only; split_ifs <;> simp
      · have hd : (fun i => (if 0 ≤ d (σ i) then (1 : ℝ) else -1) * |d (σ i)|) = d ∘ σ := by
          funext i
          simp only [Function.comp_apply]
          split_ifs with h
          · rw [one_mul, abs_of_nonneg h]
          · rw [neg_one_mul, abs_of_neg (not_le.mp h), neg_neg]
        rw [hd]
        conv_rhs => rw [← hsp]
        ext i j
        rw [Matrix.mul_apply, Matrix.mul_apply]
        simp only [Matrix.mul_diagonal, Matrix.submatrix_apply, id,
          Matrix.transpose_apply, Function.comp_apply]
        exact Equiv.sum_comp σ (fun x => u i x * d x * u j x)
    · exact ⟨1, 0, 1, by simp, fun _ => le_rfl, fun _ _ _ => le_rfl, fun _ => Or.inl rfl,
        fun h => absurd h hA⟩
  choose u s sg h1 h2 h3 h4 h5 using key
  exact ⟨⟨fun {n} A => u n A, fun {n} A => s n A, fun {n} A => sg n A, fun A => h1 _ A,
    fun A => h2 _ A, fun A => h3 _ A, fun A => h4 _ A, fun A => h5 _ A⟩⟩

/-- **C18** (general symmetric input). The factor is lower triangular and its Gram matrix is
`u diag(e) uᵀ` with `e = 1/s` for the singular values above `rtol` times the largest and 0 for the
others. -/
theorem invSqrtCore_gram (qr : QR) (svd : SVD) (rtol : ℝ) (A : Matrix (Fin n) (Fin n) ℝ) :
    IsLower (invSqrtCore qr svd rtol A) ∧
    invSqrtCore qr svd rtol A * (invSqrtCore qr svd rtol A)ᵀ =
      svd.u A * Matrix.diagonal
        (fun i => if rtol * svd.top A < svd.s A i then (svd.s A i)⁻¹ else 0) * (svd.u A)ᵀ := by
  refine ⟨triaSq_lower qr _ le_rfl, ?_⟩
  unfold invSqrtCore
  rw [triaSq_gram]
  ext i j
  rw [Matrix.mul_apply, Matrix.mul_apply]
  simp only [Matrix.mul_diagonal, Matrix.of_apply, Matrix.transpose_apply]
  refine Finset.sum_congr rfl fun x _ => ?_
  split_ifs with h
  · have : (1 / Real.sqrt (svd.s A x)) * (1 / Real.sqrt (svd.s A x)) = (svd.s A x)⁻¹ := by
      rw [div_mul_div_comm, one_mul, Real.mul_self_sqrt (svd.nonneg A x), one_div]
    rw [← this]; ring
  · ring

/-- Core of C18: `S` vanishes outside the valid dimensions `V` and is positive definite with condition
number below `1 / rtol` on them. -/
theorem invSqrtCore_inverse (qr : QR) (svd : SVD) (rtol lo hi : ℝ) (V : Fin n → Prop)
    [DecidablePred V] (S : Matrix (Fin n) (Fin n) ℝ) (hS : S.IsSymm)
    (hV : ∀ i j, ¬ (V i ∧ V j) → S i j = 0) (hr : 0 ≤ rtol) (hlo : 0 < lo) (hc : rtol * hi < lo)
    (hb : ∀ x : Fin n → ℝ, (∀ i, ¬ V i → x i = 0) →
      lo * (x ⬝ᵥ x) ≤ x ⬝ᵥ S *ᵥ x ∧ x ⬝ᵥ S *ᵥ x ≤ hi * (x ⬝ᵥ x))
    (G : Matrix (Fin n) (Fin n) ℝ)
    (hG : G = invSqrtCore qr svd rtol S * (invSqrtCore qr svd rtol S)ᵀ) :
    S * G = Matrix.diagonal (fun i => if V i then 1 else 0) ∧ ∀ i j, ¬ (V i ∧ V j) → G i j = 0 := by
  set u := svd.u S with hu
  set d : Fin n → ℝ := fun i => svd.sign S i * svd.s S i with hd
  have ho : uᵀ * u = 1 := svd.orthogonal S
  have ho' : u * uᵀ = 1 := mul_eq_one_comm.mp ho
  have hf : u * Matrix.diagonal d * uᵀ = S := svd.factor S hS
  -- eigenvector equation
  have heig : S * u = u * Matrix.diagonal d := by
    rw [← hf, Matrix.mul_assoc, ho, Matrix.mul_one]
  have hcol : ∀ i, S *ᵥ (fun r => u r i) = fun r => d i * u r i := by
    intro i
    funext r
    have := congrFun (congrFun heig r) i
    rw [Matrix.mul_diagonal, Matrix.mul_apply] at this
    rw [mul_comm (d i), ← this]
    rfl
  have hnorm : ∀ i, (fun r => u r i) ⬝ᵥ (fun r => u r i) = 1 := by
    intro i
    have := congrFun (congrFun ho i) i
    rw [Matrix.mul_apply, Matrix.one_apply_eq] at this
    exact this
  have hrange : ∀ (x : Fin n → ℝ) i, ¬ V i → (S *ᵥ x) i = 0 := by
    intro x i hi
    rw [Matrix.mulVec, dotProduct]
    refine Finset.sum_eq_zero fun j _ => ?_
    rw [hV i j fun h => hi h.1, zero_mul]
  have hdbound : ∀ i, d i ≠ 0 → lo ≤ d i ∧ d i ≤ hi := by
    intro i hi0
    have hsup : ∀ r, ¬ V r → u r i = 0 := by
      intro r hr
      have h1 := congrFun (hcol i) r
      rw [hrange _ r hr] at h1
      exact (mul_eq_zero.mp h1.symm).resolve_left hi0
    have hq : (fun r => u r i) ⬝ᵥ S *ᵥ (fun r => u r i) = d i := by
      rw [hcol i]
      have : (fun r => d i * u r i) = d i • fun r => u r i := rfl
      rw [this, dotProduct_smul, hnorm, smul_eq_mul, mul_one]
    have := hb (fun r => u r i) hsup
    rw [hq, hnorm, mul_one, mul_one] at this
    exact this
  have hsd : ∀ i, svd.s S i = d i := by
    intro i
    have h0 := svd.nonneg S i
    rcases svd.sign_abs S i with h1 | h1
    · simp [hd, h1]
    · by_cases hz : svd.s S i = 0
      · simp [hd, hz]
      · exfalso
        have hne : d i ≠ 0 := by simp [hd, h1, hz]
        have := (hdbound i hne).1
        simp only [hd, h1] at this
        linarith
  have htop : 0 ≤ rtol * svd.top S ∧ rtol * svd.top S < lo := by
    unfold SVD.top
    split_ifs with hn
    · rw [hsd]
      by_cases hz : d ⟨0, hn⟩ = 0
      · rw [hz, mul_zero]; exact ⟨le_rfl, hlo⟩
      · have := hdbound _ hz
        exact ⟨mul_nonneg hr (hlo.le.trans this.1),
          lt_of_le_of_lt (mul_le_mul_of_nonneg_left this.2 hr) hc⟩
    · rw [mul_zero]; exact ⟨le_rfl, hlo⟩
  have hGd : G = u * Matrix.diagonal (fun i => (d i)⁻¹) * uᵀ := by
    rw [hG, (invSqrtCore_gram qr svd rtol S).2]
    congr 3
    funext i
    by_cases hz : d i = 0
    · rw [if_neg, hz, _root_.inv_zero]
      rw [hsd, hz]; exact not_lt.mpr htop.1
    · rw [if_pos, hsd]
      rw [hsd]; exact lt_of_lt_of_le htop.2 (hdbound i hz).1
  have hsandwich : ∀ x y : Fin n → ℝ, (u * Matrix.diagonal x * uᵀ) * (u * Matrix.diagonal y * uᵀ) =
      u * Matrix.diagonal (fun i => x i * y i) * uᵀ := by
    intro x y
    calc _ = u * Matrix.diagonal x * (uᵀ * u) * Matrix.diagonal y * uᵀ := by
          simp only [Matrix.mul_assoc]
      _ = _ := by
          rw [ho, Matrix.mul_one, Matrix.mul_assoc u, Matrix.diagonal_mul_diagonal]
  have hSG : S * G = G * S := by
    rw [hGd, ← hf, hsandwich, hsandwich]
    simp only [mul_comm]
  have hSGS : S * (G * S) = S := by
    conv_rhs => rw [← hf]
    rw [hGd, ← hf, hsandwich, hsandwich]
    congr 3
    funext i
    by_cases hz : d i = 0
    · simp [hz]
    · field_simp
  have hGSG : G * (S * G) = G := by
    rw [hGd, ← hf, hsandwich, hsandwich]
    congr 3
    funext i
    by_cases hz : d i = 0
    · simp [hz]
    · field_simp
  have hGsymm : Gᵀ = G := by
    rw [hG, Matrix.transpose_mul, Matrix.transpose_transpose]
  have hPi : S * G = Matrix.diagonal (fun i => if V i then 1 else 0) := by
    ext r c
    have hcolc : (fun r => (S * G) r c) = S *ᵥ (fun r => G r c) := rfl
    by_cases hcV : V c
    · -- column c of the projection is the basis vector
      let w : Fin n → ℝ := fun r => (if r = c then 1 else 0) - (S * G) r c
      have hw0 : ∀ i, ¬ V i → w i = 0 := by
        intro i hi
        have hic : i ≠ c := by rintro rfl; exact hi hcV
        have h1 : (S * G) i c = 0 := by
          rw [show (S * G) i c = (fun r => (S * G) r c) i from rfl, hcolc, hrange _ i hi]
        simp only [w, if_neg hic, h1, sub_zero]
      have hSw : S *ᵥ w = 0 := by
        funext i
        have h2 : (S * (S * G)) i c = S i c := by rw [hSG, hSGS]
        have h3 : (S *ᵥ w) i = S i c - (S * (S * G)) i c := by
          rw [Matrix.mul_apply, Matrix.mulVec, dotProduct]
          simp only [w, mul_sub, Finset.sum_sub_distrib, mul_ite, mul_one, mul_zero,
            Finset.sum_ite_eq', Finset.mem_univ, if_true]
        rw [h3, h2, sub_self]; rfl
      have hwz : w ⬝ᵥ w = 0 := by
        have h4 := (hb w hw0).1
        rw [hSw, dotProduct_zero] at h4
        have h5 : 0 ≤ w ⬝ᵥ w := Finset.sum_nonneg fun i _ => mul_self_nonneg (w i)
        nlinarith
      have hwr : w r = 0 := by
        have := (Finset.sum_eq_zero_iff_of_nonneg (fun i _ => mul_self_nonneg (w i))).mp hwz r
          (Finset.mem_univ r)
        exact mul_self_eq_zero.mp this
      have h6 : (S * G) r c = if r = c then 1 else 0 := by
        simp only [w] at hwr; linarith
      rw [h6, Matrix.diagonal_apply]
      by_cases hrc : r = c
      · subst hrc; simp [hcV]
      · simp [hrc]
    · have h1 : (S * G) r c = 0 := by
        rw [hSG, Matrix.mul_apply]
        refine Finset.sum_eq_zero fun j _ => ?_
        rw [hV j c fun h => hcV h.2, mul_zero]
      rw [h1, Matrix.diagonal_apply]
      by_cases hrc : r = c
      · subst hrc; simp [hcV]
      · simp [hrc]
  refine ⟨hPi, ?_⟩
  have hcolz : ∀ i j, ¬ V j → G i j = 0 := by
    intro i j hj
    rw [← hGSG, hPi, Matrix.mul_diagonal, if_neg hj, mul_zero]
  intro i j hij
  by_cases hj : V j
  · have hi : ¬ V i := fun hi => hij ⟨hi, hj⟩
    rw [← hGsymm, Matrix.transpose_apply]
    exact hcolz j i hi
  · exact hcolz i j hj

/-- **C18** (positive definite). Let `A` be symmetric with `lo |x|² ≤ xᵀAx ≤ hi |x|²`, `0 < lo`, and
condition number `hi / lo` below `1 / rtol`. Then `symmetric_inv_sqrt(A)` (with or without
`ignore_nan_dims`) has no NaN, is lower triangular, and `L Lᵀ` is the inverse of `A`. -/
theorem symmetric_inv_sqrt_posdef (qr : QR) (svd : SVD) (rtol lo hi : ℝ) (ignoreNanDims : Bool)
    (A : Matrix (Fin n) (Fin n) ℝ) (hA : A.IsSymm) (hr : 0 ≤ rtol) (hlo : 0 < lo)
    (hc : rtol * hi < lo)
    (hb : ∀ x : Fin n → ℝ, lo * (x ⬝ᵥ x) ≤ x ⬝ᵥ A *ᵥ x ∧ x ⬝ᵥ A *ᵥ x ≤ hi * (x ⬝ᵥ x)) :
    ∃ L : Matrix (Fin n) (Fin n) ℝ,
      (∀ i j, symmetricInvSqrt qr svd rtol ignoreNanDims (fun i j => some (A i j)) i j = some (L i j)) ∧
      (∀ i j, i < j → L i j = 0) ∧ A * (L * Lᵀ) = 1 := by
  classical
  obtain ⟨hSG, -⟩ := invSqrtCore_inverse qr svd rtol lo hi (fun _ => True) A hA
    (fun _ _ h => absurd ⟨trivial, trivial⟩ h) hr hlo hc (fun x _ => hb x) _ rfl
  simp only [if_true, Matrix.diagonal_one] at hSG
  have hl := (invSqrtCore_gram qr svd rtol A).1
  refine ⟨invSqrtCore qr svd rtol A, fun i j => ?_, hl, hSG⟩
  have hdiag : ∀ i, A i i ≠ 0 := by
    intro i h0
    have h1 := (hb (Pi.single i 1)).1
    simp [h0] at h1
    linarith
  have hmask : (fun i : Fin n => ((some (A i i)).isNone && ignoreNanDims) ||
      decide ((∀ r, (some (A r i)) = some (0 : ℝ)) ∧ ∀ c, some (A i c) = some (0 : ℝ))) =
      fun _ => false := by
    funext i
    simp only [Option.isNone_some, Bool.false_and, Bool.false_or, Option.some.injEq,
      decide_eq_false_iff_not]
    intro h
    exact hdiag i (h.1 i)
  have hzero : ∀ i, ¬ ((∀ r, invSqrtCore qr svd rtol A r i = 0) ∧
      ∀ c, invSqrtCore qr svd rtol A i c = 0) := by
    intro i h
    have h1 : (A * (invSqrtCore qr svd rtol A * (invSqrtCore qr svd rtol A)ᵀ)) i i = 0 := by
      rw [Matrix.mul_apply]
      refine Finset.sum_eq_zero fun j _ => ?_
      rw [Matrix.mul_apply]
      rw [Finset.sum_eq_zero, mul_zero]
      intro x _
      rw [Matrix.transpose_apply, h.2 x, mul_zero]
    rw [hSG, Matrix.one_apply_eq] at h1
    exact one_ne_zero h1
  set mask : Fin n → Bool := fun i : Fin n => ((some (A i i)).isNone && ignoreNanDims) ||
      decide ((∀ r, (some (A r i)) = some (0 : ℝ)) ∧ ∀ c, some (A i c) = some (0 : ℝ))
  have hres : symmetricInvSqrt qr svd rtol ignoreNanDims (fun i j => some (A i j)) i j =
      if (stableArgsort mask).symm i = (stableArgsort mask).symm j ∧
        mask (stableArgsort mask ((stableArgsort mask).symm i)) = true then none
      else if ((mask (stableArgsort mask ((stableArgsort mask).symm i)) ||
        mask (stableArgsort mask ((stableArgsort mask).symm j))) && ignoreNanDims) = true then some 0
      else (if ∃ i j, ((mask (stableArgsort mask i) || mask (stableArgsort mask j)) && ignoreNanDims) = false ∧
          some (A (stableArgsort mask i) (stableArgsort mask j)) = none then fun _ _ => none
        else symmetricInvSqrtNoNan qr svd rtol (Matrix.of fun i j =>
        if ((mask (stableArgsort mask i) || mask (stableArgsort mask j)) && ignoreNanDims) = true then 0
        else A (stableArgsort mask i) (stableArgsort mask j)))
          ((stableArgsort mask).symm i) ((stableArgsort mask).symm j) := rfl
  rw [hres, if_neg (c := ∃ i j, _ ∧ _) (by simp), hmask, stableArgsort_false]
  have hof : (Matrix.of fun i j => A i j) = A := rfl
  simp only [Bool.or_self, Bool.false_and, Bool.false_eq_true, and_false, if_false,
    Equiv.refl_symm, Equiv.refl_apply, hof, symmetricInvSqrtNoNan, hzero, or_self]

theorem sum_subtype_of_zero (p : Fin n → Prop) [DecidablePred p] (g : Fin n → ℝ)
    (h : ∀ i, p i → g i = 0) : ∑ i : {i // ¬ p i}, g i.1 = ∑ i, g i := by
  rw [← Finset.sum_subtype (Finset.univ.filter fun i => ¬ p i) (by simp) g]
  refine Finset.sum_filter_of_ne fun i _ hi hp => hi (h i hp)

/-- **C18** (missing dimensions). With `ignore_nan_dims`, a dimension is missing if its diagonal entry
is NaN or its row and column vanish. Let `B` hold the entries of `A` between valid dimensions, positive
definite there with condition number below `1 / rtol`; all other entries of `A` are arbitrary. Then
the result is NaN on the diagonal of missing dimensions, zero elsewhere in their rows and columns, and
on the valid dimensions lower triangular with `L Lᵀ` the inverse of that block. -/
theorem symmetric_inv_sqrt_missing (qr : QR) (svd : SVD) (rtol lo hi : ℝ) (A : NMat n)
    (miss : Fin n → Prop) [DecidablePred miss]
    (hmiss : ∀ i, miss i ↔ A i i = none ∨ ((∀ r, A r i = some 0) ∧ ∀ c, A i c = some 0))
    (B : Matrix (Fin n) (Fin n) ℝ) (hB : B.IsSymm)
    (hAB : ∀ i j, ¬ miss i → ¬ miss j → A i j = some (B i j))
    (hr : 0 ≤ rtol) (hlo : 0 < lo) (hc : rtol * hi < lo)
    (hb : ∀ x : Fin n → ℝ, (∀ i, miss i → x i = 0) →
      lo * (x ⬝ᵥ x) ≤ x ⬝ᵥ B *ᵥ x ∧ x ⬝ᵥ B *ᵥ x ≤ hi * (x ⬝ᵥ x)) :
    ∃ L : Matrix {i // ¬ miss i} {i // ¬ miss i} ℝ,
      (∀ i j, symmetricInvSqrt qr svd rtol true A i.1 j.1 = some (L i j)) ∧
      (∀ i j : {i // ¬ miss i}, i < j → L i j = 0) ∧
      (B.submatrix Subtype.val Subtype.val : Matrix {i // ¬ miss i} {i // ¬ miss i} ℝ) *
        (L * Lᵀ) = 1 ∧
      (∀ i, miss i → symmetricInvSqrt qr svd rtol true A i i = none) ∧
      ∀ i j, i ≠ j → miss i ∨ miss j → symmetricInvSqrt qr svd rtol true A i j = some 0 := by
  classical
  set mask : Fin n → Bool := fun i => ((A i i).isNone && true) ||
      decide ((∀ r, A r i = some 0) ∧ ∀ c, A i c = some 0) with hmaskdef
  have hmask : ∀ i, mask i = true ↔ miss i := by
    intro i
    rw [hmiss]
    simp [hmaskdef, Option.isNone_iff_eq_none]
  set σ := stableArgsort mask with hσ
  set S : Matrix (Fin n) (Fin n) ℝ := Matrix.of fun i j =>
    if ((mask (σ i) || mask (σ j)) && true) then 0 else (A (σ i) (σ j)).getD 0 with hSdef
  have hSap : ∀ i j, S i j = if miss (σ i) ∨ miss (σ j) then 0 else B (σ i) (σ j) := by
    intro i j
    simp only [hSdef, Matrix.of_apply, Bool.and_true, Bool.or_eq_true, hmask]
    by_cases h : miss (σ i) ∨ miss (σ j)
    · rw [if_pos h, if_pos h]
    · rw [if_neg h, if_neg h]
      push Not at h
      rw [hAB _ _ h.1 h.2]; rfl
  have hSsymm : S.IsSymm := by
    ext i j
    rw [Matrix.transpose_apply, hSap, hSap, hB.apply]
    simp only [or_comm]
  have hV : ∀ i j, ¬ (¬ miss (σ i) ∧ ¬ miss (σ j)) → S i j = 0 := by
    intro i j h
    rw [hSap, if_pos]
    by_contra hc'; push Not at hc'; exact h hc'
  have hquad : ∀ x : Fin n → ℝ, (∀ i, ¬ ¬ miss (σ i) → x i = 0) →
      lo * (x ⬝ᵥ x) ≤ x ⬝ᵥ S *ᵥ x ∧ x ⬝ᵥ S *ᵥ x ≤ hi * (x ⬝ᵥ x) := by
    intro x hx
    have hx' : ∀ i, miss i → (x ∘ σ.symm) i = 0 := by
      intro i hi
      apply hx
      rw [Equiv.apply_symm_apply]; exact not_not.mpr hi
    have := hb (x ∘ σ.symm) hx'
    have e1 : (x ∘ σ.symm) ⬝ᵥ (x ∘ σ.symm) = x ⬝ᵥ x :=
      Equiv.sum_comp σ.symm (fun i => x i * x i)
    have e2 : (x ∘ σ.symm) ⬝ᵥ B *ᵥ (x ∘ σ.symm) = x ⬝ᵥ S *ᵥ x := by
      simp only [dotProduct, Matrix.mulVec]
      rw [← Equiv.sum_comp σ]
      refine Finset.sum_congr rfl fun i _ => ?_
      rw [← Equiv.sum_comp σ]
      simp only [Function.comp_apply, Equiv.symm_apply_apply]
      by_cases hi' : miss (σ i)
      · rw [hx i (not_not.mpr hi')]; simp
      · congr 1
        refine Finset.sum_congr rfl fun j _ => ?_
        by_cases hj' : miss (σ j)
        · rw [hx j (not_not.mpr hj')]; simp
        · rw [hSap, if_neg (by push Not; exact ⟨hi', hj'⟩)]
    rw [e1, e2] at this
    exact this
  set R := invSqrtCore qr svd rtol S with hR
  obtain ⟨hSG, hGz⟩ := invSqrtCore_inverse qr svd rtol lo hi (fun i => ¬ miss (σ i)) S hSsymm hV hr
    hlo hc hquad (R * Rᵀ) rfl
  have hRl : IsLower R := (invSqrtCore_gram qr svd rtol S).1
  have hrow : ∀ i j, miss (σ i) → R i j = 0 := by
    intro i j hi
    apply row_eq_zero_of_gram
    exact hGz i i fun h => h.1 hi
  have hcolz : ∀ i j, miss (σ i) → R j i = 0 := by
    intro i j hi
    rcases lt_or_ge j i with h | h
    · exact hRl j i h
    · refine hrow j i ?_
      rw [← hmask] at hi ⊢
      exact (collect_nans_order mask).1 i j h hi
  have hnz : ∀ i, ¬ miss (σ i) → ¬ ((∀ r, R r i = 0) ∧ ∀ c, R i c = 0) := by
    intro i hi h
    have h1 : (S * (R * Rᵀ)) i i = 0 := by
      rw [Matrix.mul_apply]
      refine Finset.sum_eq_zero fun j _ => ?_
      rw [Matrix.mul_apply, Finset.sum_eq_zero, mul_zero]
      intro x _
      rw [Matrix.transpose_apply, h.2 x, mul_zero]
    rw [hSG, Matrix.diagonal_apply_eq, if_pos hi] at h1
    exact one_ne_zero h1
  have hres : ∀ i j, symmetricInvSqrt qr svd rtol true A i j =
      if i = j ∧ miss i then none else if miss i ∨ miss j then some 0
        else some (R (σ.symm i) (σ.symm j)) := by
    intro i j
    have : symmetricInvSqrt qr svd rtol true A i j =
        if σ.symm i = σ.symm j ∧ mask (σ (σ.symm i)) = true then none
        else if ((mask (σ (σ.symm i)) || mask (σ (σ.symm j))) && true) = true then some 0
        else (if ∃ i j, ((mask (σ i) || mask (σ j)) && true) = false ∧ A (σ i) (σ j) = none then
          fun _ _ => none else symmetricInvSqrtNoNan qr svd rtol S) (σ.symm i) (σ.symm j) := rfl
    rw [this, if_neg (c := ∃ i j, _ ∧ _)]
    swap
    · rintro ⟨i, j, hij, hn⟩
      rw [Bool.and_true, Bool.or_eq_false_iff, ← Bool.not_eq_true, ← Bool.not_eq_true, hmask, hmask] at hij
      rw [hAB _ _ hij.1 hij.2] at hn
      cases hn
    simp only [Equiv.apply_symm_apply, Bool.and_true, Bool.or_eq_true, hmask,
      EmbeddingLike.apply_eq_iff_eq]
    by_cases h1 : i = j ∧ miss i
    · rw [if_pos h1, if_pos h1]
    · rw [if_neg h1, if_neg h1]
      by_cases h2 : miss i ∨ miss j
      · rw [if_pos h2, if_pos h2]
      · rw [if_neg h2, if_neg h2]
        push Not at h2
        have a1 := hnz (σ.symm i) (by rw [Equiv.apply_symm_apply]; exact h2.1)
        have a2 := hnz (σ.symm j) (by rw [Equiv.apply_symm_apply]; exact h2.2)
        simp only [symmetricInvSqrtNoNan, ← hR]
        rw [if_neg]
        rintro (h | h)
        · exact a1 h
        · exact a2 h
  refine ⟨Matrix.of fun i j => R (σ.symm i.1) (σ.symm j.1), ?_, ?_, ?_, ?_, ?_⟩
  · intro i j
    rw [hres, if_neg fun h => i.2 h.2, if_neg (by push Not; exact ⟨i.2, j.2⟩)]
    rfl
  · intro i j hij
    rw [Matrix.of_apply]
    apply hRl
    by_contra hle
    rw [not_lt] at hle
    rcases hle.lt_or_eq with h | h
    · have h1 := stableArgsort_stable mask (σ.symm j.1) (σ.symm i.1) h (by
        rw [← hσ, Equiv.apply_symm_apply, Equiv.apply_symm_apply]
        have b1 : mask j.1 = false := by
          rw [← Bool.not_eq_true, hmask]; exact j.2
        have b2 : mask i.1 = false := by
          rw [← Bool.not_eq_true, hmask]; exact i.2
        rw [b1, b2])
      rw [← hσ, Equiv.apply_symm_apply, Equiv.apply_symm_apply] at h1
      exact absurd hij (not_lt.mpr h1.le)
    · have := σ.symm.injective h
      rw [Subtype.ext this] at hij
      exact lt_irrefl _ hij
  · ext i j
    have h1 := congrFun (congrFun hSG (σ.symm i.1)) (σ.symm j.1)
    rw [Matrix.mul_apply, ← Equiv.sum_comp σ.symm] at h1
    have h2 : (Matrix.diagonal fun i => if ¬ miss (σ i) then (1 : ℝ) else 0) (σ.symm i.1)
        (σ.symm j.1) = (1 : Matrix {i // ¬ miss i} {i // ¬ miss i} ℝ) i j := by
      by_cases hij : i = j
      · subst hij
        rw [Matrix.diagonal_apply_eq, Equiv.apply_symm_apply, if_pos i.2, Matrix.one_apply_eq]
      · rw [Matrix.diagonal_apply_ne, Matrix.one_apply_ne hij]
        intro h; exact hij (Subtype.ext (σ.symm.injective h))
    rw [h2] at h1
    rw [← h1, ← sum_subtype_of_zero miss, Matrix.mul_apply]
    · refine Finset.sum_congr rfl fun k _ => ?_
      rw [hSap, if_neg (by
        rw [Equiv.apply_symm_apply, Equiv.apply_symm_apply]; push Not; exact ⟨i.2, k.2⟩),
        Equiv.apply_symm_apply, Equiv.apply_symm_apply, Matrix.submatrix_apply]
      congr 1
      rw [Matrix.mul_apply, Matrix.mul_apply, ← Equiv.sum_comp σ.symm,
        ← sum_subtype_of_zero miss]
      · rfl
      · intro l hl
        rw [hcolz (σ.symm l) _ (by rw [Equiv.apply_symm_apply]; exact hl), zero_mul]
    · intro k hk
      rw [hSap, if_pos (Or.inr (by rw [Equiv.apply_symm_apply]; exact hk)), zero_mul]
  · intro i hi
    rw [hres, if_pos ⟨rfl, hi⟩]
  · intro i j hij h
    rw [hres, if_neg fun h' => hij h'.1, if_pos h]

/-- Non-vacuity for C18 with a missing dimension: dimension 0 is NaN and correlated with dimension 1 in
the input. -/
example : ∃ (A : NMat 2) (miss : Fin 2 → Prop) (B : Matrix (Fin 2) (Fin 2) ℝ),
    (∀ i, miss i ↔ A i i = none ∨ ((∀ r, A r i = some 0) ∧ ∀ c, A i c = some 0)) ∧ miss 0 ∧
    ¬ miss 1 ∧ B.IsSymm ∧ (∀ i j, ¬ miss i → ¬ miss j → A i j = some (B i j)) ∧
    ∀ x : Fin 2 → ℝ, (∀ i, miss i → x i = 0) →
      4 * (x ⬝ᵥ x) ≤ x ⬝ᵥ B *ᵥ x ∧ x ⬝ᵥ B *ᵥ x ≤ 4 * (x ⬝ᵥ x) := by
  refine ⟨fun i j => if i = 0 ∧ j = 0 then none else some 4, fun i => i = 0, (4 : ℝ) • 1, ?_, rfl,
    by decide, ?_, ?_, ?_⟩
  · intro i; fin_cases i <;> simp
  · rw [Matrix.IsSymm, Matrix.transpose_smul, Matrix.transpose_one]
  · intro i j hi hj
    fin_cases i <;> fin_cases j <;> simp at hi hj ⊢
  · intro x _
    rw [Matrix.smul_mulVec, Matrix.one_mulVec, dotProduct_smul, smul_eq_mul]
    exact ⟨le_rfl, le_rfl⟩

/-- Non-vacuity for C18: the identity meets the condition for every `rtol < 1`. -/
example : ∃ lo hi : ℝ, 0 < lo ∧ (1 / 2 : ℝ) * hi < lo ∧ ∀ x : Fin 3 → ℝ,
    lo * (x ⬝ᵥ x) ≤ x ⬝ᵥ (1 : Matrix (Fin 3) (Fin 3) ℝ) *ᵥ x ∧
      x ⬝ᵥ (1 : Matrix (Fin 3) (Fin 3) ℝ) *ᵥ x ≤ hi * (x ⬝ᵥ x) :=
  ⟨1, 1, one_pos, by norm_num, fun x => by simp⟩

/-! ## C19 -/

/-- **C19.** Let `miss` be the dimensions with a NaN on the diagonal of the factor, and let `L` hold the
entries between the other dimensions. The covariance returned is `L Lᵀ` on those, NaN on the
diagonal of missing dimensions, and zero elsewhere in their rows and columns. -/
theorem chol_cov_with_nans_to_cov_correct (C : NMat n) (L : Matrix (Fin n) (Fin n) ℝ)
    (hL : ∀ i j, C i i ≠ none → C j j ≠ none → C i j = some (L i j)) :
    (∀ i j, C i i ≠ none → C j j ≠ none → cholCovWithNansToCov C i j =
      some (∑ k, if C k k = none then 0 else L i k * L j k)) ∧
    (∀ i, C i i = none → cholCovWithNansToCov C i i = none) ∧
    ∀ i j, i ≠ j → C i i = none ∨ C j j = none → cholCovWithNansToCov C i j = some 0 := by
  refine ⟨fun i j hi hj => ?_, fun i hi => ?_, fun i j hij h => ?_⟩
  · have hi' : (C i i).isNone = false := by
      cases h : C i i with
      | none => exact absurd h hi
      | some _ => rfl
    have hj' : (C j j).isNone = false := by
      cases h : C j j with
      | none => exact absurd h hj
      | some _ => rfl
    simp only [cholCovWithNansToCov, hi', Bool.false_eq_true, and_false, if_false, nanMatMul]
    refine nanSum_some fun k => ?_
    simp only [hj', Bool.false_or]
    by_cases hk : C k k = none
    · simp [hk, nanMul]
    · have hk' : (C k k).isNone = false := by cases h : C k k; exacts [absurd h hk, rfl]
      simp [hk, hk', hL i k hi hk, hL j k hj hk, nanMul]
  · simp [cholCovWithNansToCov, hi]
  · simp only [cholCovWithNansToCov, hij, false_and, if_false, nanMatMul]
    have hZ : ∀ a k, ∃ r, (if (C a a).isNone || (C k k).isNone then some 0 else C a k) = some r := by
      intro a k
      by_cases ha : C a a = none
      · exact ⟨0, by simp [ha]⟩
      by_cases hk : C k k = none
      · exact ⟨0, by simp [hk]⟩
      · exact ⟨L a k, by simp [Option.isNone_iff_eq_none, ha, hk, hL a k ha hk]⟩
    rw [nanSum_some (g := fun _ => 0) fun k => ?_]
    · simp
    · obtain ⟨r, hr⟩ := hZ i k
      obtain ⟨q, hq⟩ := hZ j k
      rcases h with h | h
      · rw [hq]; simp [h, nanMul]
      · rw [hr]; simp [h, nanMul]

/-- **C19** (other NaNs). A NaN in the factor between two dimensions that are not missing is not hidden: the
variance of its row is NaN, and so are the covariances with the other dimensions that are not missing. -/
theorem chol_cov_with_nans_to_cov_nan (C : NMat n) (i k : Fin n) (hi : C i i ≠ none) (hk : C k k ≠ none)
    (h : C i k = none) (j : Fin n) (hj : C j j ≠ none) :
    cholCovWithNansToCov C i j = none ∧ cholCovWithNansToCov C j i = none := by
  have h1 : ∀ a, C a a ≠ none → (C a a).isNone = false := fun a ha => by
    cases h : C a a with
    | none => exact absurd h ha
    | some _ => rfl
  constructor
  · simp only [cholCovWithNansToCov, h1 i hi, Bool.false_eq_true, and_false, if_false, nanMatMul, nanSum]
    rw [if_neg]
    intro h2
    have h3 := h2 k
    simp [h1 k hk, h, nanMul] at h3
  · simp only [cholCovWithNansToCov, h1 j hj, Bool.false_eq_true, and_false, if_false, nanMatMul, nanSum]
    rw [if_neg]
    intro h2
    have h3 := h2 k
    simp only [h1 k hk, h1 i hi, h, nanMul, Bool.false_or, Bool.false_eq_true, if_false, Option.map_none,
      Option.bind_fun_none, Option.isNone_none] at h3
    exact absurd h3 (by simp)

/-- Non-vacuity for C19: a factor with one missing dimension out of two. -/
example : ∃ C : NMat 2, C 0 0 = none ∧ C 1 1 = some 3 ∧
    ∀ i j, C i i ≠ none → C j j ≠ none → C i j = some ((3 : Matrix (Fin 2) (Fin 2) ℝ) i j) := by
  refine ⟨fun i _ => if i = 0 then none else some 3, rfl, rfl, ?_⟩
  intro i j hi hj
  fin_cases i <;> fin_cases j <;> simp at hi hj ⊢
  rfl

end Cuthbert
