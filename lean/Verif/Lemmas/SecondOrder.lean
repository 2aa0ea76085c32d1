import Verif.Lemmas.LGSSM
import Mathlib.LinearAlgebra.BilinearMap
import Mathlib.LinearAlgebra.Span.Basic

/-!
# Kalman recursions in a space with a bilinear form

Vectors of elements of a space `E` with a symmetric positive semidefinite bilinear form `B`. With `E` the
square-integrable random variables and `B a b` the expectation of `a b`, `mom B v w` is the matrix of second
moments of two random vectors, and the recursions of the Kalman filter and of the smoother are orthogonal
projections.
-/

namespace Cuthbert.SecondOrder
open Matrix

noncomputable section

set_option linter.unusedSectionVars false

variable {E : Type*} [AddCommGroup E] [Module ℝ E] {ι κ ν : Type*} [Fintype ι] [Fintype κ] [Fintype ν]

/-- A matrix applied to a vector of elements of `E`. -/
def act (A : Matrix ι κ ℝ) (v : κ → E) : ι → E := fun i => ∑ j, A i j • v j

/-- A constant vector. -/
def cst (one : E) (c : ι → ℝ) : ι → E := fun i => c i • one

/-- The matrix of the values of the bilinear form. -/
def mom (B : E →ₗ[ℝ] E →ₗ[ℝ] ℝ) (v : ι → E) (w : κ → E) : Matrix ι κ ℝ := Matrix.of fun i j => B (v i) (w j)

variable (B : E →ₗ[ℝ] E →ₗ[ℝ] ℝ)

theorem mom_act_left (A : Matrix ι κ ℝ) (v : κ → E) (w : ν → E) : mom B (act A v) w = A * mom B v w := by
  ext i j
  simp [mom, act, Matrix.mul_apply, map_sum]

theorem mom_act_right (A : Matrix ι κ ℝ) (v : κ → E) (w : ν → E) : mom B w (act A v) = mom B w v * Aᵀ := by
  ext i j
  simp [mom, act, Matrix.mul_apply, map_sum, mul_comm]

theorem mom_add_left (v v' : ι → E) (w : κ → E) : mom B (v + v') w = mom B v w + mom B v' w := by
  ext i j; simp [mom]

theorem mom_add_right (v v' : ι → E) (w : κ → E) : mom B w (v + v') = mom B w v + mom B w v' := by
  ext i j; simp [mom]

theorem mom_sub_left (v v' : ι → E) (w : κ → E) : mom B (v - v') w = mom B v w - mom B v' w := by
  ext i j; simp [mom]

theorem mom_sub_right (v v' : ι → E) (w : κ → E) : mom B w (v - v') = mom B w v - mom B w v' := by
  ext i j; simp [mom]

theorem mom_transpose {B : E →ₗ[ℝ] E →ₗ[ℝ] ℝ} (hB : ∀ a b, B a b = B b a) (v : ι → E) (w : κ → E) :
    (mom B v w)ᵀ = mom B w v := by
  ext i j; simp [mom, hB]

theorem act_add (A : Matrix ι κ ℝ) (v w : κ → E) : act A (v + w) = act A v + act A w := by
  funext i; simp [act, Finset.sum_add_distrib]

theorem act_sub (A : Matrix ι κ ℝ) (v w : κ → E) : act A (v - w) = act A v - act A w := by
  funext i; simp [act, smul_sub]

/-- The elements with which every component of `v` has form zero. -/
def orth (v : ι → E) : Submodule ℝ E where
  carrier := {w | ∀ i, B (v i) w = 0}
  add_mem' ha hb i := by rw [map_add, ha i, hb i, add_zero]
  zero_mem' i := by simp
  smul_mem' c a ha i := by rw [map_smul, ha i, smul_zero]

theorem mem_orth {v : ι → E} {w : E} : w ∈ orth B v ↔ ∀ i, B (v i) w = 0 := Iff.rfl

theorem mom_eq_zero {v : ι → E} {w : κ → E} : mom B v w = 0 ↔ ∀ j, w j ∈ orth B v := by
  constructor
  · intro h j i
    exact congrFun (congrFun h i) j
  · intro h
    ext i j
    exact h j i

theorem act_mem {W : Submodule ℝ E} (A : Matrix ι κ ℝ) {v : κ → E} (h : ∀ j, v j ∈ W) (i : ι) : act A v i ∈ W :=
  Submodule.sum_mem _ fun j _ => W.smul_mem _ (h j)

theorem cst_mem {W : Submodule ℝ E} {one : E} (h : one ∈ W) (c : ι → ℝ) (i : ι) : cst one c i ∈ W := W.smul_mem _ h

/-! ### The filter -/

section filter

variable {n : ℕ} {ο : ℕ → Type} [∀ t, Fintype (ο t)] [∀ t, DecidableEq (ο t)]

/-- A state-space model in `E` up to time `T`. `q` and `r` are the noises; `past t` contains the constants, the
initial state and the noises before step `t`. -/
structure Model (one : E) (T : ℕ) (m0 : Fin n → ℝ) (P0 : Matrix (Fin n) (Fin n) ℝ) (F Q : ℕ → Matrix (Fin n) (Fin n) ℝ)
    (c : ℕ → Fin n → ℝ) (H : ∀ t, Matrix (ο t) (Fin n) ℝ) (d : ∀ t, ο t → ℝ) (R : ∀ t, Matrix (ο t) (ο t) ℝ)
    (x : ℕ → Fin n → E) (z : ∀ t, ο t → E) (q : ℕ → Fin n → E) (r : ∀ t, ο t → E) : Prop where
  symm : ∀ a b, B a b = B b a
  dyn : ∀ t < T, x (t + 1) = act (F t) (x t) + cst one (c t) + q t
  obs : ∀ t < T, z t = act (H t) (x (t + 1)) + cst one (d t) + r t
  init_one : ∀ i, B (x 0 i - m0 i • one) one = 0
  init_cov : mom B (x 0 - cst one m0) (x 0 - cst one m0) = P0
  q_cov : ∀ t < T, mom B (q t) (q t) = Q t
  r_cov : ∀ t < T, mom B (r t) (r t) = R t
  q_one : ∀ t < T, one ∈ orth B (q t)
  r_one : ∀ t < T, one ∈ orth B (r t)
  q_init : ∀ t < T, ∀ i, x 0 i ∈ orth B (q t)
  r_init : ∀ t < T, ∀ i, x 0 i ∈ orth B (r t)
  q_q : ∀ t < T, ∀ s < T, s ≠ t → ∀ i, q s i ∈ orth B (q t)
  r_r : ∀ t < T, ∀ s < T, s ≠ t → ∀ i, r s i ∈ orth B (r t)
  q_r : ∀ t < T, ∀ s < T, ∀ i, r s i ∈ orth B (q t)

/-- The span of the constants and the observations of the steps before `t`. -/
def data (one : E) (z : ∀ t, ο t → E) (t : ℕ) : Submodule ℝ E :=
  Submodule.span ℝ (insert one {w | ∃ s < t, ∃ i, w = z s i})

theorem one_mem_data (one : E) (z : ∀ t, ο t → E) (t : ℕ) : one ∈ data one z t :=
  Submodule.subset_span (Set.mem_insert _ _)

theorem mem_data (one : E) (z : ∀ t, ο t → E) {s t : ℕ} (h : s < t) (i : ο s) : z s i ∈ data one z t :=
  Submodule.subset_span (Set.mem_insert_of_mem _ ⟨s, h, i, rfl⟩)

theorem data_le {one : E} {z : ∀ t, ο t → E} {t : ℕ} {W : Submodule ℝ E} (h1 : one ∈ W)
    (h2 : ∀ s < t, ∀ i, z s i ∈ W) : data one z t ≤ W := by
  rw [data, Submodule.span_le]
  rintro w (rfl | ⟨s, hs, i, rfl⟩)
  · exact h1
  · exact h2 s hs i

theorem data_mono {one : E} {z : ∀ t, ο t → E} {s t : ℕ} (h : s ≤ t) : data one z s ≤ data one z t :=
  data_le (one_mem_data _ _ _) fun _ hr i => mem_data _ _ (hr.trans_le h) i

/-- The means of the filter, as elements of `E`, for covariances `P t` (after step `t`). -/
def fmean (one : E) (m0 : Fin n → ℝ) (F Q : ℕ → Matrix (Fin n) (Fin n) ℝ) (c : ℕ → Fin n → ℝ)
    (H : ∀ t, Matrix (ο t) (Fin n) ℝ) (d : ∀ t, ο t → ℝ) (R : ∀ t, Matrix (ο t) (ο t) ℝ)
    (P : ℕ → Matrix (Fin n) (Fin n) ℝ) (z : ∀ t, ο t → E) : ℕ → Fin n → E
  | 0 => cst one m0
  | t + 1 =>
    let m := act (F t) (fmean one m0 F Q c H d R P z t) + cst one (c t)
    let S := F t * P t * (F t)ᵀ + Q t
    m + act (S * (H t)ᵀ * (innovCov S (H t) (R t))⁻¹) (z t - (act (H t) m + cst one (d t)))

variable {B} {one : E} {T : ℕ} {m0 : Fin n → ℝ} {P0 : Matrix (Fin n) (Fin n) ℝ} {F Q : ℕ → Matrix (Fin n) (Fin n) ℝ}
  {c : ℕ → Fin n → ℝ} {H : ∀ t, Matrix (ο t) (Fin n) ℝ} {d : ∀ t, ο t → ℝ} {R : ∀ t, Matrix (ο t) (ο t) ℝ}
  {x : ℕ → Fin n → E} {z : ∀ t, ο t → E} {q : ℕ → Fin n → E} {r : ∀ t, ο t → E}

/-- A subspace that contains the constants, the state at time `t` and the later noises contains the later states
and observations. -/
theorem Model.later (M : Model B one T m0 P0 F Q c H d R x z q r) {W : Submodule ℝ E} {t : ℕ} (h1 : one ∈ W)
    (hx : ∀ i, x t i ∈ W) (hq : ∀ s < T, t ≤ s → ∀ i, q s i ∈ W) : ∀ s ≤ T, t ≤ s → ∀ i, x s i ∈ W := by
  intro s
  induction s with
  | zero =>
    intro _ h
    obtain rfl : t = 0 := by omega
    exact hx
  | succ s ih =>
    intro hs h
    rcases h.eq_or_lt with rfl | h
    · exact hx
    · intro i
      rw [M.dyn s (by omega)]
      exact W.add_mem (W.add_mem (act_mem _ (ih (by omega) (by omega)) i) (cst_mem h1 _ i)) (hq s (by omega) (by omega) i)

theorem Model.obs_mem (M : Model B one T m0 P0 F Q c H d R x z q r) {W : Submodule ℝ E} {t : ℕ} (ht : t < T) (h1 : one ∈ W)
    (hx : ∀ i, x (t + 1) i ∈ W) (hr : ∀ i, r t i ∈ W) (i : ο t) : z t i ∈ W := by
  rw [M.obs t ht]
  exact W.add_mem (W.add_mem (act_mem _ hx i) (cst_mem h1 _ i)) (hr i)

/-- The noises of step `t` are orthogonal to the state before it and to the data before it. -/
theorem Model.past (M : Model B one T m0 P0 F Q c H d R x z q r) {t : ℕ} (ht : t < T) :
    (∀ i, x t i ∈ orth B (q t)) ∧ (∀ i, x t i ∈ orth B (r t)) ∧ data one z t ≤ orth B (q t) ∧
      data one z t ≤ orth B (r t) := by
  have hrq : ∀ s < T, ∀ i, q s i ∈ orth B (r t) := fun s hs i j => by
    rw [M.symm]; exact M.q_r s hs t ht j i
  have hX : ∀ s ≤ t, (∀ i, x s i ∈ orth B (q t)) ∧ ∀ i, x s i ∈ orth B (r t) := by
    intro s
    induction s with
    | zero => exact fun _ => ⟨M.q_init t ht, M.r_init t ht⟩
    | succ s ih =>
      intro hs
      obtain ⟨h1, h2⟩ := ih (by omega)
      rw [M.dyn s (by omega)]
      exact ⟨fun i => Submodule.add_mem _ (Submodule.add_mem _ (act_mem _ h1 i) (cst_mem (M.q_one t ht) _ i))
          (M.q_q t ht s (by omega) (by omega) i),
        fun i => Submodule.add_mem _ (Submodule.add_mem _ (act_mem _ h2 i) (cst_mem (M.r_one t ht) _ i))
          (hrq s (by omega) i)⟩
  refine ⟨(hX t le_rfl).1, (hX t le_rfl).2, data_le (M.q_one t ht) fun s hs i => ?_, data_le (M.r_one t ht) fun s hs i => ?_⟩
  · exact M.obs_mem (by omega) (M.q_one t ht) (hX (s + 1) (by omega)).1 (M.q_r t ht s (by omega)) i
  · exact M.obs_mem (by omega) (M.r_one t ht) (hX (s + 1) (by omega)).2 (M.r_r t ht s (by omega) (by omega)) i

theorem fmean_mem (P : ℕ → Matrix (Fin n) (Fin n) ℝ) : ∀ t i,
    fmean one m0 F Q c H d R P z t i ∈ data one z t
  | 0, i => cst_mem (one_mem_data _ _ _) _ i
  | t + 1, i => by
    have hp : ∀ i, (act (F t) (fmean one m0 F Q c H d R P z t) + cst one (c t)) i ∈ data one z (t + 1) := fun i =>
      Submodule.add_mem _ (act_mem _ (fun j => data_mono (Nat.le_succ t) (fmean_mem P t j)) i)
        (cst_mem (one_mem_data _ _ _) _ i)
    rw [fmean]
    exact Submodule.add_mem _ (hp i) (act_mem _ (fun j => Submodule.sub_mem _ (mem_data _ _ (Nat.lt_succ_self t) j)
      (Submodule.add_mem _ (act_mem _ hp j) (cst_mem (one_mem_data _ _ _) _ j))) i)

/-- One step of the filter, in terms of the error before it. -/
theorem Model.predict (M : Model B one T m0 P0 F Q c H d R x z q r) (P : ℕ → Matrix (Fin n) (Fin n) ℝ) {t : ℕ} (ht : t < T)
    (e : mom B (x t - fmean one m0 F Q c H d R P z t) (x t - fmean one m0 F Q c H d R P z t) = P t)
    (ho : data one z t ≤ orth B (x t - fmean one m0 F Q c H d R P z t)) :
    let m := act (F t) (fmean one m0 F Q c H d R P z t) + cst one (c t)
    x (t + 1) - m = act (F t) (x t - fmean one m0 F Q c H d R P z t) + q t ∧
    mom B (x (t + 1) - m) (x (t + 1) - m) = F t * P t * (F t)ᵀ + Q t ∧
    mom B (x t - fmean one m0 F Q c H d R P z t) (x (t + 1) - m) = P t * (F t)ᵀ ∧
    data one z t ≤ orth B (x (t + 1) - m) ∧ (∀ i, (x (t + 1) - m) i ∈ orth B (r t)) := by
  intro m
  obtain ⟨p1, p2, p3, p4⟩ := M.past ht
  have h1 : x (t + 1) - m = act (F t) (x t - fmean one m0 F Q c H d R P z t) + q t := by
    rw [M.dyn t ht, act_sub]
    simp only [m]
    abel
  have hq0 : mom B (q t) (x t - fmean one m0 F Q c H d R P z t) = 0 :=
    (mom_eq_zero B).2 fun j => Submodule.sub_mem _ (p1 j) (p3 (fmean_mem P t j))
  have hq0' : mom B (x t - fmean one m0 F Q c H d R P z t) (q t) = 0 := by
    rw [← mom_transpose M.symm, hq0, Matrix.transpose_zero]
  refine ⟨h1, ?_, ?_, ?_, ?_⟩
  · rw [h1]
    simp only [mom_add_left, mom_add_right, mom_act_left, mom_act_right, e, hq0, hq0', M.q_cov t ht]
    simp [Matrix.mul_assoc]
  · rw [h1]
    simp only [mom_add_right, mom_act_right, e, hq0', add_zero]
  · intro w hw i
    rw [h1]
    have h2 : B (act (F t) (x t - fmean one m0 F Q c H d R P z t) i) w = 0 := by
      simp only [act, map_sum, map_smul, LinearMap.sum_apply, LinearMap.smul_apply]
      exact Finset.sum_eq_zero fun j _ => by rw [ho hw j, smul_zero]
    rw [Pi.add_apply, map_add, LinearMap.add_apply, h2, p3 hw i, add_zero]
  · intro i
    rw [h1]
    refine Submodule.add_mem _ (act_mem _ (fun j => Submodule.sub_mem _ (p2 j) (p4 (fmean_mem P t j))) i) fun j => ?_
    rw [M.symm]
    exact M.q_r t ht t ht j i

/-- The error of the filter's mean: its second moments are the filter's covariance, and it is orthogonal to the data. -/
theorem Model.filter (M : Model B one T m0 P0 F Q c H d R x z q r) (P : ℕ → Matrix (Fin n) (Fin n) ℝ) (hP0 : P 0 = P0)
    (hP : ∀ t < T, P (t + 1) = condCov (F t * P t * (F t)ᵀ + Q t) (H t) (R t))
    (hS : ∀ t < T, (innovCov (F t * P t * (F t)ᵀ + Q t) (H t) (R t)).det ≠ 0) : ∀ t ≤ T,
    mom B (x t - fmean one m0 F Q c H d R P z t) (x t - fmean one m0 F Q c H d R P z t) = P t ∧
      data one z t ≤ orth B (x t - fmean one m0 F Q c H d R P z t)
  | 0, _ => by
    rw [hP0]
    refine ⟨M.init_cov, data_le (fun i => M.init_one i) fun s hs => absurd hs (by omega)⟩
  | t + 1, ht => by
    obtain ⟨e, ho⟩ := M.filter P hP0 hP hS t (by omega)
    obtain ⟨h1, h2, -, h4, h5⟩ := M.predict P (by omega) e ho
    obtain ⟨m, hm⟩ : ∃ m, m = act (F t) (fmean one m0 F Q c H d R P z t) + cst one (c t) := ⟨_, rfl⟩
    obtain ⟨S, hSe⟩ : ∃ S, S = F t * P t * (F t)ᵀ + Q t := ⟨_, rfl⟩
    have hdet := hS t (by omega)
    have hPt := hP t (by omega)
    rw [← hSe] at hdet hPt h2
    rw [← hm] at h1 h2 h4 h5
    obtain ⟨ν, hν⟩ : ∃ ν, ν = z t - (act (H t) m + cst one (d t)) := ⟨_, rfl⟩
    obtain ⟨K, hK⟩ : ∃ K, K = S * (H t)ᵀ * (innovCov S (H t) (R t))⁻¹ := ⟨_, rfl⟩
    have hf : fmean one m0 F Q c H d R P z (t + 1) = m + act K ν := by
      rw [fmean, hK, hν, hm, hSe]
    have hν' : ν = act (H t) (x (t + 1) - m) + r t := by
      rw [hν, M.obs t (by omega), act_sub]
      abel
    have hr0 : mom B (r t) (x (t + 1) - m) = 0 := (mom_eq_zero B).2 h5
    have hr0' : mom B (x (t + 1) - m) (r t) = 0 := by rw [← mom_transpose M.symm, hr0, Matrix.transpose_zero]
    have hsymm : Sᵀ = S := by rw [← h2, mom_transpose M.symm]
    have hc1 : mom B (x (t + 1) - m) ν = S * (H t)ᵀ := by
      rw [hν', mom_add_right, mom_act_right, h2, hr0', add_zero]
    have hc2 : mom B ν ν = innovCov S (H t) (R t) := by
      rw [hν', mom_add_right, mom_add_left, mom_add_left, mom_act_right, mom_act_left, mom_act_right, mom_act_left, h2,
        hr0, hr0', M.r_cov t (by omega), innovCov]
      simp
    have he : x (t + 1) - fmean one m0 F Q c H d R P z (t + 1) = (x (t + 1) - m) - act K ν := by
      rw [hf]; abel
    have hu : IsUnit (innovCov S (H t) (R t)).det := isUnit_iff_ne_zero.2 hdet
    have hz : mom B ((x (t + 1) - m) - act K ν) ν = 0 := by
      rw [mom_sub_left, mom_act_left, hc1, hc2, hK, Matrix.nonsing_inv_mul_cancel_right _ _ hu, sub_self]
    rw [he]
    constructor
    · rw [mom_sub_right, mom_act_right, hz, Matrix.zero_mul, sub_zero, mom_sub_left, mom_act_left, h2, hPt, condCov, hK,
        ← mom_transpose M.symm, hc1]
      simp only [Matrix.transpose_mul, Matrix.transpose_transpose, hsymm, Matrix.mul_assoc]
    · have ho' : data one z t ≤ orth B ((x (t + 1) - m) - act K ν) := by
        intro w hw i
        have hν0 : ∀ j, B (ν j) w = 0 := by
          intro j
          rw [hν', Pi.add_apply, map_add, LinearMap.add_apply, (M.past (by omega)).2.2.2 hw j, add_zero]
          simp only [act, map_sum, map_smul, LinearMap.sum_apply, LinearMap.smul_apply]
          exact Finset.sum_eq_zero fun k _ => by rw [h4 hw k, smul_zero]
        rw [Pi.sub_apply, map_sub, LinearMap.sub_apply, h4 hw i, zero_sub, neg_eq_zero]
        simp only [act, map_sum, map_smul, LinearMap.sum_apply, LinearMap.smul_apply]
        exact Finset.sum_eq_zero fun j _ => by rw [hν0 j, smul_zero]
      have hm' : ∀ i, m i ∈ data one z t := fun i => by
        rw [hm]
        exact Submodule.add_mem _ (act_mem _ (fmean_mem P t) i) (cst_mem (one_mem_data _ _ _) _ i)
      refine data_le (ho' (one_mem_data _ _ _)) fun s hs i => ?_
      rcases (Nat.lt_succ_iff.mp hs).eq_or_lt with rfl | hs
      · have hzt : z s = ν + (act (H s) m + cst one (d s)) := by rw [hν]; abel
        rw [hzt]
        exact Submodule.add_mem _ ((mom_eq_zero B).1 hz i) (ho' (Submodule.add_mem _ (act_mem _ hm' i)
          (cst_mem (one_mem_data _ _ _) _ i)))
      · exact ho' (mem_data _ _ hs i)

/-! ### The smoother -/

/-- The means of the smoother at time `T - k`. -/
def smean (F Q : ℕ → Matrix (Fin n) (Fin n) ℝ) (c : ℕ → Fin n → ℝ) (one : E) (P : ℕ → Matrix (Fin n) (Fin n) ℝ)
    (f : ℕ → Fin n → E) (T : ℕ) : ℕ → Fin n → E
  | 0 => f T
  | k + 1 =>
    let t := T - (k + 1)
    f t + act (P t * (F t)ᵀ * (F t * P t * (F t)ᵀ + Q t)⁻¹) (smean F Q c one P f T k - (act (F t) (f t) + cst one (c t)))

/-- The covariances of the smoother at time `T - k`. -/
def scov (F Q : ℕ → Matrix (Fin n) (Fin n) ℝ) (P : ℕ → Matrix (Fin n) (Fin n) ℝ) (T : ℕ) : ℕ → Matrix (Fin n) (Fin n) ℝ
  | 0 => P T
  | k + 1 =>
    let t := T - (k + 1)
    let G := P t * (F t)ᵀ * (F t * P t * (F t)ᵀ + Q t)⁻¹
    condCov (P t) (F t) (Q t) + G * scov F Q P T k * Gᵀ

theorem Model.smoother (M : Model B one T m0 P0 F Q c H d R x z q r) (P : ℕ → Matrix (Fin n) (Fin n) ℝ) (hP0 : P 0 = P0)
    (hP : ∀ t < T, P (t + 1) = condCov (F t * P t * (F t)ᵀ + Q t) (H t) (R t))
    (hS : ∀ t < T, (innovCov (F t * P t * (F t)ᵀ + Q t) (H t) (R t)).det ≠ 0)
    (hG : ∀ t < T, (F t * P t * (F t)ᵀ + Q t).det ≠ 0) : ∀ k ≤ T,
    (∀ i, smean F Q c one P (fmean one m0 F Q c H d R P z) T k i ∈ data one z T) ∧
    mom B (x (T - k) - smean F Q c one P (fmean one m0 F Q c H d R P z) T k)
      (x (T - k) - smean F Q c one P (fmean one m0 F Q c H d R P z) T k) = scov F Q P T k ∧
      data one z T ≤ orth B (x (T - k) - smean F Q c one P (fmean one m0 F Q c H d R P z) T k)
  | 0, _ => ⟨fmean_mem P T, M.filter P hP0 hP hS T le_rfl⟩
  | k + 1, hk => by
    obtain ⟨i1, i2, i3⟩ := M.smoother P hP0 hP hS hG k (by omega)
    obtain ⟨t, ht⟩ : ∃ t, t = T - (k + 1) := ⟨_, rfl⟩
    have htk : T - k = t + 1 := by omega
    have htT : t < T := by omega
    rw [smean, scov, ← ht]
    rw [htk] at i2 i3
    generalize smean F Q c one P (fmean one m0 F Q c H d R P z) T k = N at *
    generalize scov F Q P T k = V at *
    obtain ⟨e, ho⟩ := M.filter P hP0 hP hS t htT.le
    obtain ⟨h1, h2, h3, h4, h5⟩ := M.predict P htT e ho
    have hmem := fmean_mem (one := one) (m0 := m0) (F := F) (Q := Q) (c := c) (H := H) (d := d) (R := R) (z := z) P t
    generalize fmean one m0 F Q c H d R P z t = f at *
    obtain ⟨m, hm⟩ : ∃ m, m = act (F t) f + cst one (c t) := ⟨_, rfl⟩
    obtain ⟨S, hSe⟩ : ∃ S, S = F t * P t * (F t)ᵀ + Q t := ⟨_, rfl⟩
    have hdet := hG t htT
    rw [← hSe] at hdet h2 ⊢
    rw [← hm] at h1 h2 h3 h4 h5 ⊢
    obtain ⟨G, hGe⟩ : ∃ G, G = P t * (F t)ᵀ * S⁻¹ := ⟨_, rfl⟩
    rw [← hGe]
    have hm' : ∀ i, m i ∈ data one z t := fun i => by
      rw [hm]
      exact Submodule.add_mem _ (act_mem _ hmem i) (cst_mem (one_mem_data _ _ _) _ i)
    obtain ⟨u, hu⟩ : ∃ u, u = (x t - f) - act G (x (t + 1) - m) := ⟨_, rfl⟩
    have hes : x t - (f + act G (N - m)) = u + act G (x (t + 1) - N) := by
      rw [hu]
      simp only [act_sub]
      abel
    have hSu : IsUnit S.det := isUnit_iff_ne_zero.2 hdet
    have hu0 : mom B u (x (t + 1) - m) = 0 := by
      rw [hu, mom_sub_left, mom_act_left, h2, h3, hGe, Matrix.nonsing_inv_mul_cancel_right _ _ hSu, sub_self]
    -- a component of `u` is a combination of the error at time `t` and the noise of the step
    have hlin : ∀ w, (∀ i, B ((x t - f) i) w = 0) → (∀ i, B ((x (t + 1) - m) i) w = 0) → w ∈ orth B u := by
      intro w ha hb i
      rw [hu, Pi.sub_apply, map_sub, LinearMap.sub_apply, ha i, zero_sub, neg_eq_zero]
      simp only [act, map_sum, map_smul, LinearMap.sum_apply, LinearMap.smul_apply]
      exact Finset.sum_eq_zero fun j _ => by rw [hb j, smul_zero]
    have hD : data one z t ≤ orth B u := fun w hw => hlin w (fun i => ho hw i) fun i => h4 hw i
    have hx1 : ∀ i, x (t + 1) i ∈ orth B u := fun i => by
      have : x (t + 1) i = (x (t + 1) - m) i + m i := by simp
      rw [this]
      exact Submodule.add_mem _ ((mom_eq_zero B).1 hu0 i) (hD (hm' i))
    have h1u : one ∈ orth B u := hD (one_mem_data _ _ _)
    -- later noises
    have hlate : ∀ s < T, t < s → (∀ i, q s i ∈ orth B u) ∧ ∀ i, r s i ∈ orth B u := by
      intro s hs hts
      obtain ⟨p1, p2, p3, p4⟩ := M.past hs
      have hxs : ∀ a ≤ s, (∀ i, x a i ∈ orth B (q s)) ∧ ∀ i, x a i ∈ orth B (r s) := by
        intro a
        induction a with
        | zero => exact fun _ => ⟨M.q_init s hs, M.r_init s hs⟩
        | succ a ih =>
          intro ha
          obtain ⟨b1, b2⟩ := ih (by omega)
          rw [M.dyn a (by omega)]
          refine ⟨fun i => Submodule.add_mem _ (Submodule.add_mem _ (act_mem _ b1 i) (cst_mem (M.q_one s hs) _ i))
            (M.q_q s hs a (by omega) (by omega) i),
            fun i => Submodule.add_mem _ (Submodule.add_mem _ (act_mem _ b2 i) (cst_mem (M.r_one s hs) _ i)) fun j => ?_⟩
          rw [M.symm]
          exact M.q_r a (by omega) s hs j i
      have hDs : data one z t ≤ data one z s := data_mono hts.le
      refine ⟨fun i => hlin _ (fun j => ?_) fun j => ?_, fun i => hlin _ (fun j => ?_) fun j => ?_⟩ <;> rw [M.symm]
      · exact Submodule.sub_mem _ ((hxs t hts.le).1 j) (p3 (hDs (hmem j))) i
      · exact Submodule.sub_mem _ ((hxs (t + 1) hts).1 j) (p3 (hDs (hm' j))) i
      · exact Submodule.sub_mem _ ((hxs t hts.le).2 j) (p4 (hDs (hmem j))) i
      · exact Submodule.sub_mem _ ((hxs (t + 1) hts).2 j) (p4 (hDs (hm' j))) i
    have hrt : ∀ i, r t i ∈ orth B u := by
      obtain ⟨p1, p2, p3, p4⟩ := M.past htT
      intro i
      refine hlin _ (fun j => ?_) fun j => ?_ <;> rw [M.symm]
      · exact Submodule.sub_mem _ (p2 j) (p4 (hmem j)) i
      · exact h5 j i
    have hDT : data one z T ≤ orth B u := by
      refine data_le h1u fun s hs i => ?_
      rcases lt_or_ge s t with h | h
      · exact hD (mem_data _ _ h i)
      · have hX := M.later (W := orth B u) (t := t + 1) h1u hx1 (fun a ha hta => (hlate a ha (by omega)).1)
        refine M.obs_mem hs h1u (hX (s + 1) (by omega) (by omega)) ?_ i
        rcases h.eq_or_lt with rfl | h
        · exact hrt
        · exact (hlate s hs h).2
    have hue : mom B u (x (t + 1) - N) = 0 := (mom_eq_zero B).2 fun j => Submodule.sub_mem _ (hx1 j) (hDT (i1 j))
    refine ⟨fun i => Submodule.add_mem _ (data_mono htT.le (hmem i)) (act_mem _ (fun j => Submodule.sub_mem _ (i1 j)
      (data_mono htT.le (hm' j))) i), ?_, ?_⟩
    · rw [hes, mom_add_right, mom_add_left, mom_add_left, mom_act_right, mom_act_right, mom_act_left, mom_act_left,
        hue, i2, ← mom_transpose M.symm u (x (t + 1) - N), hue]
      simp only [Matrix.transpose_zero, Matrix.mul_zero, Matrix.zero_mul, add_zero, zero_add]
      congr 1
      have huu : mom B u u = mom B u (x t - f) := by
        nth_rw 2 [hu]
        rw [mom_sub_right, mom_act_right, hu0, Matrix.zero_mul, sub_zero]
      have hPs : (P t)ᵀ = P t := by rw [← e, mom_transpose M.symm]
      rw [huu, hu, mom_sub_left, mom_act_left, e, ← mom_transpose M.symm (x t - f), h3, hGe, condCov, innovCov, ← hSe]
      simp only [Matrix.transpose_mul, Matrix.transpose_transpose, hPs, Matrix.mul_assoc]
    · intro w hw i
      rw [hes, Pi.add_apply, map_add, LinearMap.add_apply, hDT hw i, zero_add]
      simp only [act, map_sum, map_smul, LinearMap.sum_apply, LinearMap.smul_apply]
      exact Finset.sum_eq_zero fun j _ => by rw [i3 hw j, smul_zero]

/-- An error that is orthogonal to the data is minimal among the elements of the data's span. -/
theorem best (hsymm : ∀ a b, B a b = B b a) (hpos : ∀ a, 0 ≤ B a a) {D : Submodule ℝ E} {X Mn : Fin n → E}
    (hM : ∀ i, Mn i ∈ D) (ho : D ≤ orth B (X - Mn)) (v : Fin n → ℝ) {w : E} (hw : w ∈ D) :
    B (∑ i, v i • X i - ∑ i, v i • Mn i) (∑ i, v i • X i - ∑ i, v i • Mn i) =
        v ⬝ᵥ mom B (X - Mn) (X - Mn) *ᵥ v ∧
      v ⬝ᵥ mom B (X - Mn) (X - Mn) *ᵥ v ≤ B (∑ i, v i • X i - w) (∑ i, v i • X i - w) := by
  obtain ⟨a, ha⟩ : ∃ a, a = ∑ i, v i • X i - ∑ i, v i • Mn i := ⟨_, rfl⟩
  have ha' : a = ∑ i, v i • (X - Mn) i := by
    rw [ha, ← Finset.sum_sub_distrib]
    exact Finset.sum_congr rfl fun i _ => by rw [← smul_sub]; rfl
  have h1 : B a a = v ⬝ᵥ mom B (X - Mn) (X - Mn) *ᵥ v := by
    rw [ha']
    simp only [map_sum, map_smul, LinearMap.sum_apply, LinearMap.smul_apply, dotProduct, Matrix.mulVec, mom, Matrix.of_apply,
      smul_eq_mul, Finset.mul_sum]
    rw [Finset.sum_comm]
    exact Finset.sum_congr rfl fun i _ => Finset.sum_congr rfl fun j _ => by ring
  have h2 : ∀ b ∈ D, B a b = 0 := fun b hb => by
    rw [ha']
    simp only [map_sum, map_smul, LinearMap.sum_apply, LinearMap.smul_apply]
    exact Finset.sum_eq_zero fun i _ => by rw [ho hb i, smul_zero]
  rw [← ha]
  refine ⟨h1, ?_⟩
  obtain ⟨b, hb⟩ : ∃ b, b = ∑ i, v i • Mn i - w := ⟨_, rfl⟩
  have hbD : b ∈ D := by
    rw [hb]
    exact Submodule.sub_mem _ (Submodule.sum_mem _ fun i _ => D.smul_mem _ (hM i)) hw
  have hs : ∑ i, v i • X i - w = a + b := by rw [ha, hb]; abel
  rw [hs, map_add, map_add, LinearMap.add_apply, LinearMap.add_apply, h2 b hbD, hsymm b a, h2 b hbD, ← h1]
  linarith [hpos b]

end filter

end

end Cuthbert.SecondOrder
