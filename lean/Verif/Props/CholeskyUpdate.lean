import Verif.Model.Quadrature
import Verif.Lemmas.Linalg
import Mathlib.LinearAlgebra.Matrix.PosDef

/-!
# Rank-one updates of a Cholesky factor (C43)
-/

namespace Cuthbert.Quadrature
open Matrix

noncomputable section

variable {n m : ℕ}

/-- The outputs of a scan whose states are known. -/
theorem laxScan_get {σ χ υ : Type*} (body : σ → χ → σ × υ) (st : ℕ → σ) (out : ℕ → υ) :
    ∀ (xs : List χ) (k₀ : ℕ), (∀ k x, xs[k]? = some x → body (st (k₀ + k)) x = (st (k₀ + k + 1), out (k₀ + k))) →
      (laxScan body (st k₀) xs).1 = st (k₀ + xs.length) ∧
      ∀ k < xs.length, (laxScan body (st k₀) xs).2[k]? = some (out (k₀ + k))
  | [], k₀, _ => ⟨rfl, fun k hk => absurd hk (Nat.not_lt_zero k)⟩
  | x :: xs, k₀, h => by
    have h0 := h 0 x rfl
    rw [Nat.add_zero] at h0
    obtain ⟨h1, h2⟩ := laxScan_get body st out xs (k₀ + 1) fun k x hx => by
      have := h (k + 1) x hx
      rwa [← Nat.add_assoc, Nat.add_right_comm] at this
    simp only [laxScan, h0]
    refine ⟨?_, fun k hk => ?_⟩
    · rw [h1, List.length_cons]; congr 1; omega
    · cases k with
      | zero => rfl
      | succ k =>
        have := h2 k (by simpa using hk)
        rw [List.getElem?_cons_succ, this]
        congr 2
        omega

/-! ## One update -/

/-- The solution of `L y = v`. -/
def fwd (L : Matrix (Fin n) (Fin n) ℝ) (v : Fin n → ℝ) : Fin n → ℝ := L⁻¹ *ᵥ v

/-- The vector left after the first `k` columns. -/
def omegaAt (L : Matrix (Fin n) (Fin n) ℝ) (v : Fin n → ℝ) (k : ℕ) (i : Fin n) : ℝ :=
  ∑ j : Fin n, if k ≤ j.val then L i j * fwd L v j else 0

/-- The scalar carried after the first `k` columns. -/
def bAt (mult : ℝ) (L : Matrix (Fin n) (Fin n) ℝ) (v : Fin n → ℝ) (k : ℕ) : ℝ :=
  1 + mult * ∑ j : Fin n, if j.val < k then fwd L v j ^ 2 else 0

variable {L : Matrix (Fin n) (Fin n) ℝ} {v : Fin n → ℝ} {mult : ℝ}

theorem omegaAt_zero (hL : L.det ≠ 0) (i : Fin n) : omegaAt L v 0 i = v i := by
  have : (L *ᵥ fwd L v) i = v i := by
    rw [fwd, Matrix.mulVec_mulVec, Matrix.mul_nonsing_inv _ hL.isUnit, Matrix.one_mulVec]
  rw [← this]
  simp only [omegaAt, Nat.zero_le, if_true]
  rfl

theorem omegaAt_succ (k : Fin n) (i : Fin n) : omegaAt L v k i = L i k * fwd L v k + omegaAt L v (k + 1) i := by
  unfold omegaAt
  rw [← Finset.add_sum_erase _ _ (Finset.mem_univ k), if_pos le_rfl,
    ← Finset.add_sum_erase Finset.univ (fun j : Fin n => if k.val + 1 ≤ j.val then L i j * fwd L v j else 0)
      (Finset.mem_univ k), if_neg (by omega), zero_add]
  congr 1
  refine Finset.sum_congr rfl fun j hj => ?_
  have hjk : j ≠ k := Finset.ne_of_mem_erase hj
  have : j.val ≠ k.val := fun h => hjk (Fin.ext h)
  by_cases h : k.val ≤ j.val
  · rw [if_pos h, if_pos (by omega)]
  · rw [if_neg h, if_neg (by omega)]

theorem omegaAt_last (i : Fin n) : omegaAt L v n i = 0 :=
  Finset.sum_eq_zero fun j _ => if_neg (by omega)

theorem omegaAt_lt (hl : ∀ i j, i < j → L i j = 0) (k : ℕ) (i : Fin n) (hi : i.val < k) : omegaAt L v k i = 0 := by
  refine Finset.sum_eq_zero fun j _ => ?_
  split_ifs with h
  · rw [hl i j (Fin.lt_def.mpr (by omega)), zero_mul]
  · rfl

theorem omegaAt_self (hl : ∀ i j, i < j → L i j = 0) (k : Fin n) : omegaAt L v k k = L k k * fwd L v k := by
  rw [omegaAt_succ, omegaAt_lt hl _ _ (Nat.lt_succ_self _), add_zero]

theorem bAt_zero : bAt mult L v 0 = 1 := by simp [bAt]

theorem bAt_succ (k : Fin n) : bAt mult L v (k + 1) = bAt mult L v k + mult * fwd L v k ^ 2 := by
  unfold bAt
  rw [← Finset.add_sum_erase _ _ (Finset.mem_univ k), if_pos (Nat.lt_succ_self _),
    ← Finset.add_sum_erase Finset.univ (fun j : Fin n => if j.val < k.val then fwd L v j ^ 2 else 0)
      (Finset.mem_univ k), if_neg (lt_irrefl _), zero_add]
  have : ∑ j ∈ Finset.univ.erase k, (if j.val < k.val + 1 then fwd L v j ^ 2 else 0) =
      ∑ j ∈ Finset.univ.erase k, if j.val < k.val then fwd L v j ^ 2 else 0 := by
    refine Finset.sum_congr rfl fun j hj => ?_
    have hjk : j ≠ k := Finset.ne_of_mem_erase hj
    have : j.val ≠ k.val := fun h => hjk (Fin.ext h)
    by_cases h : j.val < k.val
    · rw [if_pos h, if_pos (by omega)]
    · rw [if_neg h, if_neg (by omega)]
  rw [this]
  ring

/-- The new diagonal. -/
def newDiag (mult : ℝ) (L : Matrix (Fin n) (Fin n) ℝ) (v : Fin n → ℝ) (j : Fin n) : ℝ :=
  Real.sqrt (L j j ^ 2 * (bAt mult L v (j + 1) / bAt mult L v j))

/-- The new columns. -/
def newCol (mult : ℝ) (L : Matrix (Fin n) (Fin n) ℝ) (v : Fin n → ℝ) (i j : Fin n) : ℝ :=
  newDiag mult L v j * (L i j / L j j + mult * fwd L v j / (L j j * bAt mult L v (j + 1)) * omegaAt L v (j + 1) i)

theorem body_eq (hl : ∀ i j, i < j → L i j = 0) (hd : ∀ i, L i i ≠ 0) (hb : ∀ k ≤ n, 0 < bAt mult L v k)
    (j : Fin n) : cholUpdateBody mult ((fun i => Fl.fin (omegaAt L v j i)), .fin (bAt mult L v j))
      (j, .fin (L j j), fun i => .fin (L i j)) =
      (((fun i => Fl.fin (omegaAt L v (j + 1) i)), .fin (bAt mult L v (j + 1))),
        (.fin (newDiag mult L v j), fun i => .fin (newCol mult L v i j))) := by
  have hb0 := hb j j.2.le
  have hb1 := hb (j + 1) j.2
  have hdj := hd j
  have hs := bAt_succ (mult := mult) (L := L) (v := v) j
  have ho := omegaAt_self (v := v) hl j
  have e1 : L j j * L j j + mult / bAt mult L v j * (omegaAt L v j j * omegaAt L v j j) =
      L j j ^ 2 * (bAt mult L v (j + 1) / bAt mult L v j) := by
    rw [ho, hs]
    field_simp
  have e2 : L j j * L j j * bAt mult L v j + mult * (omegaAt L v j j * omegaAt L v j j) =
      L j j ^ 2 * bAt mult L v (j + 1) := by
    rw [ho, hs]; ring
  have e3 : omegaAt L v j j / L j j = fwd L v j := by rw [ho]; field_simp
  have hg : L j j ^ 2 * bAt mult L v (j + 1) ≠ 0 := mul_ne_zero (pow_ne_zero 2 hdj) hb1.ne'
  have hnn : ¬ L j j ^ 2 * (bAt mult L v (j + 1) / bAt mult L v j) < 0 := not_lt.mpr (by positivity)
  have e4 : ∀ i, omegaAt L v j i - fwd L v j * L i j = omegaAt L v (j + 1) i := fun i => by
    rw [omegaAt_succ j i]; ring
  unfold cholUpdateBody
  simp only [Fl.fin_mul, Fl.fin_div _ _ hb0.ne', Fl.fin_div _ _ hdj, Fl.fin_add, Fl.fin_sub, e1, e2,
    Fl.fin_div _ _ hg, e3, e4, flSqrt, if_neg hnn]
  refine Prod.ext (Prod.ext rfl ?_) (Prod.ext rfl ?_)
  · simp only [hs, sq]
  · funext i
    simp only [newCol, newDiag, ho]
    congr 3
    field_simp

theorem choleskyUpdate_apply (hl : ∀ i j, i < j → L i j = 0) (hd : ∀ i, L i i ≠ 0)
    (hb : ∀ k ≤ n, 0 < bAt mult L v k) (i j : Fin n) : choleskyUpdate mult L v i j = newCol mult L v i j := by
  have hdet : L.det ≠ 0 := (IsLower.det_ne_zero_iff hl).mpr hd
  obtain ⟨xs, hxs⟩ : ∃ xs : List (Fin n × Fl × (Fin n → Fl)), xs = (List.finRange n).map fun j =>
    (j, Fl.fin (L j j), fun i => Fl.fin (L i j)) := ⟨_, rfl⟩
  have hlen : xs.length = n := by rw [hxs, List.length_map, List.length_finRange]
  have hget : ∀ (k : ℕ) x, xs[k]? = some x → ∃ h : k < n, x = (⟨k, h⟩, Fl.fin (L ⟨k, h⟩ ⟨k, h⟩),
      fun i => Fl.fin (L i ⟨k, h⟩)) := by
    intro k x hx
    have hk : k < n := by
      have := (List.getElem?_eq_some_iff.mp hx).1
      rwa [hlen] at this
    refine ⟨hk, ?_⟩
    rw [hxs, List.getElem?_map, List.getElem?_eq_getElem (by rwa [List.length_finRange]),
      Option.map_some, Option.some.injEq] at hx
    rw [← hx]
    simp
  have := (laxScan_get (cholUpdateBody mult)
    (fun k => ((fun i => Fl.fin (omegaAt L v k i)), Fl.fin (bAt mult L v k)))
    (fun k => if h : k < n then (Fl.fin (newDiag mult L v ⟨k, h⟩), fun i => Fl.fin (newCol mult L v i ⟨k, h⟩))
      else (.nan, fun _ => .nan)) xs 0 (fun k x hx => by
        obtain ⟨h, rfl⟩ := hget k x hx
        rw [Nat.zero_add]
        simp only [dif_pos h]
        exact body_eq hl hd hb ⟨k, h⟩)).2 j.val (by rw [hlen]; exact j.2)
  have hinit : ((fun i => Fl.fin (omegaAt L v 0 i)), Fl.fin (bAt mult L v 0)) =
      ((fun i => Fl.fin (v i)), Fl.fin 1) := by
    simp only [omegaAt_zero hdet, bAt_zero]
  rw [Nat.zero_add, hinit, dif_pos j.2, hxs] at this
  simp only [choleskyUpdate, Matrix.of_apply]
  rw [this]
  by_cases hij : i < j
  · rw [if_pos hij, newCol, hl i j hij, omegaAt_lt hl _ _ (Nat.lt_succ_of_lt hij)]
    simp
  · rw [if_neg hij]
    by_cases he : i = j
    · subst he
      simp only [if_true, finiteOrZero, newCol, omegaAt_lt hl _ _ (Nat.lt_succ_self _), div_self (hd i)]
      ring
    · simp only [if_neg he, finiteOrZero]

theorem newCol_gram (hd : ∀ i, L i i ≠ 0)
    (hb : ∀ k ≤ n, 0 < bAt mult L v k) (i i' j : Fin n) :
    newCol mult L v i j * newCol mult L v i' j = L i j * L i' j +
      (mult / bAt mult L v j * (omegaAt L v j i * omegaAt L v j i') -
        mult / bAt mult L v (j + 1) * (omegaAt L v (j + 1) i * omegaAt L v (j + 1) i')) := by
  have hb0 := hb j j.2.le
  have hb1 := hb (j + 1) j.2
  have hdj := hd j
  have hs := bAt_succ (mult := mult) (L := L) (v := v) j
  have hsq : newDiag mult L v j * newDiag mult L v j = L j j ^ 2 * (bAt mult L v (j + 1) / bAt mult L v j) :=
    Real.mul_self_sqrt (by positivity)
  have : newCol mult L v i j * newCol mult L v i' j = newDiag mult L v j * newDiag mult L v j *
      ((L i j / L j j + mult * fwd L v j / (L j j * bAt mult L v (j + 1)) * omegaAt L v (j + 1) i) *
       (L i' j / L j j + mult * fwd L v j / (L j j * bAt mult L v (j + 1)) * omegaAt L v (j + 1) i')) := by
    simp only [newCol]; ring
  rw [this, hsq, omegaAt_succ j i, omegaAt_succ j i']
  obtain ⟨b0, h0⟩ : ∃ b0, b0 = bAt mult L v j := ⟨_, rfl⟩
  obtain ⟨b1, h1⟩ : ∃ b1, b1 = bAt mult L v (j + 1) := ⟨_, rfl⟩
  rw [← h0] at hb0 hs ⊢
  rw [← h1] at hb1 hs ⊢
  have hb1' : b1 ≠ 0 := hb1.ne'
  have hb0' : b0 ≠ 0 := hb0.ne'
  field_simp
  rw [hs]
  ring

/-- One update, under the conditions on the pivots. -/
theorem choleskyUpdate_gram (hl : ∀ i j, i < j → L i j = 0) (hd : ∀ i, L i i ≠ 0)
    (hb : ∀ k ≤ n, 0 < bAt mult L v k) :
    choleskyUpdate mult L v * (choleskyUpdate mult L v)ᵀ = L * Lᵀ + mult • vecMulVec v v := by
  have hdet : L.det ≠ 0 := (IsLower.det_ne_zero_iff hl).mpr hd
  ext i i'
  rw [Matrix.mul_apply, Matrix.add_apply, Matrix.mul_apply]
  simp only [Matrix.transpose_apply, choleskyUpdate_apply hl hd hb, newCol_gram hd hb, Finset.sum_add_distrib]
  congr 1
  obtain ⟨g, hg⟩ : ∃ g : ℕ → ℝ, g = fun k => mult / bAt mult L v k * (omegaAt L v k i * omegaAt L v k i') := ⟨_, rfl⟩
  have : ∑ j : Fin n, (mult / bAt mult L v j * (omegaAt L v j i * omegaAt L v j i') -
        mult / bAt mult L v (j + 1) * (omegaAt L v (j + 1) i * omegaAt L v (j + 1) i')) =
      ∑ k ∈ Finset.range n, (g k - g (k + 1)) := by
    rw [Finset.sum_range, hg]
  rw [this, Finset.sum_range_sub', hg]
  simp only [omegaAt_zero hdet, omegaAt_last, bAt_zero, Matrix.smul_apply, vecMulVec_apply, smul_eq_mul]
  ring

/-- The pivots stay positive as long as the updated matrix is positive definite. -/
theorem bAt_pos (hl : ∀ i j, i < j → L i j = 0) (hd : ∀ i, L i i ≠ 0)
    (hpd : (L * Lᵀ + mult • vecMulVec v v).PosDef) (k : ℕ) (_hk : k ≤ n) : 0 < bAt mult L v k := by
  have hdet : L.det ≠ 0 := (IsLower.det_ne_zero_iff hl).mpr hd
  obtain ⟨y, hy⟩ : ∃ y, y = fwd L v := ⟨_, rfl⟩
  have hLy : L *ᵥ y = v := by
    rw [hy, fwd, Matrix.mulVec_mulVec, Matrix.mul_nonsing_inv _ hdet.isUnit, Matrix.one_mulVec]
  have hpart : ∑ j : Fin n, (if j.val < k then y j ^ 2 else 0) ≤ ∑ j : Fin n, y j ^ 2 :=
    Finset.sum_le_sum fun j _ => by split_ifs <;> simp [sq_nonneg]
  have hpart0 : 0 ≤ ∑ j : Fin n, (if j.val < k then y j ^ 2 else 0) :=
    Finset.sum_nonneg fun j _ => by split_ifs <;> simp [sq_nonneg]
  unfold bAt
  rw [← hy]
  by_cases hm : 0 ≤ mult
  · have := mul_nonneg hm hpart0
    linarith
  push Not at hm
  have hfull : 0 < 1 + mult * ∑ j, y j ^ 2 := by
    by_cases hy0 : y = 0
    · rw [hy0]; simp
    obtain ⟨z, hz⟩ : ∃ z, z = Lᵀ⁻¹ *ᵥ y := ⟨_, rfl⟩
    have hLz : Lᵀ *ᵥ z = y := by
      rw [hz, Matrix.mulVec_mulVec, Matrix.mul_nonsing_inv _ (by rw [Matrix.det_transpose]; exact hdet.isUnit),
        Matrix.one_mulVec]
    have hz0 : z ≠ 0 := by
      rintro rfl
      rw [Matrix.mulVec_zero] at hLz
      exact hy0 hLz.symm
    have h := hpd.dotProduct_mulVec_pos hz0
    rw [star_trivial, Matrix.add_mulVec, dotProduct_add, ← Matrix.mulVec_mulVec, hLz,
      Matrix.dotProduct_mulVec, ← Matrix.mulVec_transpose, hLz, Matrix.smul_mulVec, dotProduct_smul,
      Matrix.vecMulVec_mulVec] at h
    have hvz : v ⬝ᵥ z = y ⬝ᵥ y := by
      rw [← hLy, dotProduct_comm, Matrix.dotProduct_mulVec, ← Matrix.mulVec_transpose, hLz]
    have hyy : y ⬝ᵥ y = ∑ j, y j ^ 2 := by simp only [dotProduct, sq]
    have hs : 0 < y ⬝ᵥ y := by
      rw [hyy]
      refine lt_of_le_of_ne (Finset.sum_nonneg fun j _ => sq_nonneg _) fun h0 => hy0 ?_
      funext j
      have := (Finset.sum_eq_zero_iff_of_nonneg fun j _ => sq_nonneg (y j)).mp h0.symm j (Finset.mem_univ j)
      exact pow_eq_zero_iff (two_ne_zero) |>.mp this
    have hq : z ⬝ᵥ (MulOpposite.op (v ⬝ᵥ z) • v) = (y ⬝ᵥ y) * (y ⬝ᵥ y) := by
      rw [dotProduct_smul, dotProduct_comm z v, hvz]
      rfl
    rw [hq, smul_eq_mul, hyy] at h
    rw [hyy] at hs
    nlinarith
  nlinarith

/-! ## C43 -/

theorem diag_ne_zero_of_posDef (hl : ∀ i j, i < j → L i j = 0) (h : (L * Lᵀ).PosDef) (i : Fin n) : L i i ≠ 0 :=
  (IsLower.diag_ne_zero_iff_gram hl).mpr h.det_pos.ne' i

/-- A sum of outer products. -/
def outers (vs : List (Fin n → ℝ)) : Matrix (Fin n) (Fin n) ℝ := (vs.map fun v => vecMulVec v v).sum

/-- Many updates. -/
theorem fold_updates (mult : ℝ) : ∀ (vs : List (Fin n → ℝ)) (L : Matrix (Fin n) (Fin n) ℝ),
    (∀ i j, i < j → L i j = 0) → (∀ k ≤ vs.length, (L * Lᵀ + mult • outers (vs.take k)).PosDef) →
    ∀ L', L' = (laxScan (fun chol v => (choleskyUpdate mult chol v, ())) L vs).1 →
    (∀ i j, i < j → L' i j = 0) ∧ L' * L'ᵀ = L * Lᵀ + mult • outers vs
  | [], L, hl, _, L', hL' => by
    subst hL'
    exact ⟨hl, by simp [outers]⟩
  | v :: vs, L, hl, hp, L', hL' => by
    have h0 := hp 0 (Nat.zero_le _)
    simp only [List.take_zero, outers, List.map_nil, List.sum_nil, smul_zero, add_zero] at h0
    have h1 := hp 1 (by simp)
    simp only [List.take_succ_cons, List.take_zero, outers, List.map_cons, List.map_nil, List.sum_cons, List.sum_nil,
      add_zero] at h1
    have hd := diag_ne_zero_of_posDef hl h0
    have hb := bAt_pos hl hd h1
    have hg := choleskyUpdate_gram hl hd hb
    have hlow : ∀ i j, i < j → choleskyUpdate mult L v i j = 0 := fun i j hij => by
      simp only [choleskyUpdate, Matrix.of_apply, if_pos hij]
    have key : ∀ ws : List (Fin n → ℝ), choleskyUpdate mult L v * (choleskyUpdate mult L v)ᵀ + mult • outers ws =
        L * Lᵀ + mult • outers (v :: ws) := fun ws => by
      rw [hg, outers, outers, List.map_cons, List.sum_cons, smul_add, add_assoc]
    obtain ⟨h3, h4⟩ := fold_updates mult vs (choleskyUpdate mult L v) hlow (fun k hk => by
      rw [key, ← List.take_succ_cons]
      exact hp (k + 1) (by simpa using hk)) L' (by rw [hL']; rfl)
    exact ⟨h3, by rw [h4, key]⟩

/-- **C43**. `cholesky_update_many` returns a lower-triangular factor of the updated matrix, provided every
intermediate matrix is positive definite. -/
theorem cholesky_update_many_correct (L : Matrix (Fin n) (Fin n) ℝ) (V : Matrix (Fin m) (Fin n) ℝ) (mult : ℝ)
    (hl : ∀ i j, i < j → L i j = 0)
    (hp : ∀ k ≤ m, (L * Lᵀ + mult • ∑ r : Fin m, if r.val < k then vecMulVec (V r) (V r) else 0).PosDef) :
    (∀ i j, i < j → choleskyUpdateMany L V mult i j = 0) ∧
    choleskyUpdateMany L V mult * (choleskyUpdateMany L V mult)ᵀ = L * Lᵀ + mult • (Vᵀ * V) := by
  have hout : ∀ k, outers (((List.finRange m).map fun r i => V r i).take k) =
      ∑ r : Fin m, if r.val < k then vecMulVec (V r) (V r) else 0 := by
    intro k
    have : ∀ (l : List (Fin m)), outers (l.map fun r i => V r i) = (l.map fun r => vecMulVec (V r) (V r)).sum := fun l => by
      rw [outers, List.map_map]; rfl
    rw [← List.map_take, this]
    have hnd : ((List.finRange m).take k).Nodup := (List.nodup_finRange m).sublist (List.take_sublist _ _)
    rw [← List.sum_toFinset _ hnd, Finset.sum_ite, Finset.sum_const_zero, add_zero]
    refine Finset.sum_congr ?_ fun _ _ => rfl
    ext r
    simp only [List.mem_toFinset, Finset.mem_filter, Finset.mem_univ, true_and]
    constructor
    · intro h
      obtain ⟨i, hi, he⟩ := List.mem_take_iff_getElem.mp h
      have : r.val = i := by rw [← he]; simp
      omega
    · intro h
      refine List.mem_take_iff_getElem.mpr ⟨r.val, ?_, ?_⟩
      · rw [List.length_finRange]; exact lt_min h r.2
      · simp
  have hsum : outers ((List.finRange m).map fun r i => V r i) = Vᵀ * V := by
    have := hout m
    rw [List.take_of_length_le (by rw [List.length_map, List.length_finRange])] at this
    rw [this]
    ext i j
    rw [Matrix.sum_apply, Matrix.mul_apply]
    exact Finset.sum_congr rfl fun r _ => by rw [if_pos r.2]; rfl
  have := fold_updates mult ((List.finRange m).map fun r i => V r i) L hl (fun k hk => by
    rw [hout]
    exact hp k (by rwa [List.length_map, List.length_finRange] at hk)) _ rfl
  rwa [hsum] at this

theorem outer_posSemidef (v : Fin n → ℝ) : (vecMulVec v v).PosSemidef := by
  have := Matrix.posSemidef_vecMulVec_self_star v
  rwa [star_trivial] at this

theorem sum_outer_posSemidef (V : Matrix (Fin m) (Fin n) ℝ) (p : Fin m → Prop) [DecidablePred p] :
    (∑ r : Fin m, if p r then vecMulVec (V r) (V r) else 0).PosSemidef := by
  refine Matrix.posSemidef_sum _ fun r _ => ?_
  split_ifs
  · exact outer_posSemidef _
  · exact Matrix.PosSemidef.zero

/-- **C43**, for updates: nothing is needed beyond an invertible factor. -/
theorem cholesky_update_many_up (L : Matrix (Fin n) (Fin n) ℝ) (V : Matrix (Fin m) (Fin n) ℝ) (mult : ℝ)
    (hmult : 0 ≤ mult) (hl : ∀ i j, i < j → L i j = 0) (hd : ∀ i, L i i ≠ 0) :
    (∀ i j, i < j → choleskyUpdateMany L V mult i j = 0) ∧
    choleskyUpdateMany L V mult * (choleskyUpdateMany L V mult)ᵀ = L * Lᵀ + mult • (Vᵀ * V) := by
  refine cholesky_update_many_correct L V mult hl fun k _ => ?_
  have hdet := (IsLower.diag_ne_zero_iff_gram hl).mp hd
  have hps : (L * Lᵀ).PosSemidef := by
    have := Matrix.posSemidef_self_mul_conjTranspose L
    rwa [Matrix.conjTranspose_eq_transpose_of_trivial] at this
  have hpd : (L * Lᵀ).PosDef := hps.posDef_iff_isUnit.mpr ((Matrix.isUnit_iff_isUnit_det _).mpr hdet.isUnit)
  exact hpd.add_posSemidef ((sum_outer_posSemidef V _).smul hmult)

/-- **C43**, for downdates: it is enough that the final matrix is positive definite. -/
theorem cholesky_update_many_down (L : Matrix (Fin n) (Fin n) ℝ) (V : Matrix (Fin m) (Fin n) ℝ) (mult : ℝ)
    (hmult : mult ≤ 0) (hl : ∀ i j, i < j → L i j = 0) (hp : (L * Lᵀ + mult • (Vᵀ * V)).PosDef) :
    (∀ i j, i < j → choleskyUpdateMany L V mult i j = 0) ∧
    choleskyUpdateMany L V mult * (choleskyUpdateMany L V mult)ᵀ = L * Lᵀ + mult • (Vᵀ * V) := by
  refine cholesky_update_many_correct L V mult hl fun k _ => ?_
  have : L * Lᵀ + mult • ∑ r : Fin m, (if r.val < k then vecMulVec (V r) (V r) else 0) =
      L * Lᵀ + mult • (Vᵀ * V) +
        (-mult) • ∑ r : Fin m, (if ¬ r.val < k then vecMulVec (V r) (V r) else 0) := by
    have hs : Vᵀ * V = ∑ r : Fin m, (if r.val < k then vecMulVec (V r) (V r) else 0) +
        ∑ r : Fin m, (if ¬ r.val < k then vecMulVec (V r) (V r) else 0) := by
      rw [← Finset.sum_add_distrib]
      ext i j
      rw [Matrix.sum_apply, Matrix.mul_apply]
      refine Finset.sum_congr rfl fun r _ => ?_
      by_cases h : r.val < k <;> simp [h, vecMulVec_apply]
    rw [hs]
    module
  rw [this]
  exact hp.add_posSemidef ((sum_outer_posSemidef V _).smul (neg_nonneg.mpr hmult))

/-- **C43**: the diagonal of the result is positive after a successful update, whatever the signs before. -/
theorem cholesky_update_diag_pos (L : Matrix (Fin n) (Fin n) ℝ) (v : Fin n → ℝ) (mult : ℝ)
    (hl : ∀ i j, i < j → L i j = 0) (hd : ∀ i, L i i ≠ 0) (hp : (L * Lᵀ + mult • vecMulVec v v).PosDef)
    (i : Fin n) : 0 < choleskyUpdate mult L v i i := by
  have hb := bAt_pos hl hd hp
  rw [choleskyUpdate_apply hl hd hb, newCol, omegaAt_lt hl _ _ (Nat.lt_succ_self _), div_self (hd i), mul_zero,
    add_zero, mul_one, newDiag]
  have := hb i i.2.le
  have := hb (i + 1) i.2
  have := hd i
  exact Real.sqrt_pos.mpr (by positivity)

/-- Updating the identity by any vectors meets the hypotheses of `cholesky_update_many_up`. -/
example (V : Matrix (Fin m) (Fin n) ℝ) : choleskyUpdateMany 1 V 1 * (choleskyUpdateMany 1 V 1)ᵀ = 1 + Vᵀ * V := by
  have := (cholesky_update_many_up 1 V 1 zero_le_one (fun i j h => Matrix.one_apply_ne h.ne)
    fun i => by rw [Matrix.one_apply_eq]; exact one_ne_zero).2
  rwa [Matrix.transpose_one, mul_one, one_smul] at this

/-- Downdating `4 I` by `I` meets the hypotheses of `cholesky_update_many_down`. -/
example : choleskyUpdateMany (m := n) ((2 : ℝ) • (1 : Matrix (Fin n) (Fin n) ℝ)) 1 (-1) *
    (choleskyUpdateMany (m := n) ((2 : ℝ) • (1 : Matrix (Fin n) (Fin n) ℝ)) 1 (-1))ᵀ = (3 : ℝ) • 1 := by
  have e : ((2 : ℝ) • (1 : Matrix (Fin n) (Fin n) ℝ)) * ((2 : ℝ) • (1 : Matrix (Fin n) (Fin n) ℝ))ᵀ +
      (-1 : ℝ) • ((1 : Matrix (Fin n) (Fin n) ℝ)ᵀ * 1) = (3 : ℝ) • 1 := by
    rw [Matrix.transpose_smul, Matrix.transpose_one, Matrix.smul_mul, one_mul, mul_one]
    module
  have := (cholesky_update_many_down (m := n) ((2 : ℝ) • (1 : Matrix (Fin n) (Fin n) ℝ)) 1 (-1) (by norm_num)
    (fun i j h => by rw [Matrix.smul_apply, Matrix.one_apply_ne h.ne, smul_zero])
    (by rw [e]; exact Matrix.PosDef.one.smul (by norm_num))).2
  rwa [e] at this

end

end Cuthbert.Quadrature
