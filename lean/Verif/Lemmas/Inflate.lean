import Verif.Lemmas.SecondOrder

/-!
# Recursions run with more noise than there is

A model in a space with a bilinear form is the first component of a model with more noise, in the product with a space
of additional noises. Means are linear in the data, so the error of the recursions on the original data is the first
component of their error on the data with additional noise.
-/

namespace Cuthbert.SecondOrder
open Matrix

noncomputable section

set_option linter.unusedSectionVars false

variable {E E' : Type*} [AddCommGroup E] [Module ℝ E] [AddCommGroup E'] [Module ℝ E'] {n : ℕ} {ο : ℕ → Type}
  [∀ t, Fintype (ο t)] [∀ t, DecidableEq (ο t)]

/-! ### Linear maps -/

section
variable {ι κ : Type*} [Fintype ι] [Fintype κ]

theorem map_act (f : E' →ₗ[ℝ] E) (A : Matrix ι κ ℝ) (v : κ → E') : (fun i => f (act A v i)) = act A fun j => f (v j) := by
  funext i
  simp only [act, map_sum, map_smul]

theorem map_cst (f : E' →ₗ[ℝ] E) (one : E') (c : ι → ℝ) : (fun i => f (cst one c i)) = cst (f one) c := by
  funext i
  simp only [cst, map_smul]

theorem map_add' (f : E' →ₗ[ℝ] E) (v w : ι → E') :
    (fun i => f ((v + w) i)) = (fun i => f (v i)) + fun i => f (w i) := by
  funext i
  exact map_add f _ _

theorem map_sub' (f : E' →ₗ[ℝ] E) (v w : ι → E') :
    (fun i => f ((v - w) i)) = (fun i => f (v i)) - fun i => f (w i) := by
  funext i
  exact map_sub f _ _

end

variable {m0 : Fin n → ℝ} {P0 : Matrix (Fin n) (Fin n) ℝ} {F Q : ℕ → Matrix (Fin n) (Fin n) ℝ}
  {c : ℕ → Fin n → ℝ} {H : ∀ t, Matrix (ο t) (Fin n) ℝ} {d : ∀ t, ο t → ℝ} {R : ∀ t, Matrix (ο t) (ο t) ℝ}

theorem map_fmean (f : E' →ₗ[ℝ] E) (one : E') (P : ℕ → Matrix (Fin n) (Fin n) ℝ) (z : ∀ t, ο t → E') : ∀ t,
    (fun i => f (fmean one m0 F Q c H d R P z t i)) = fmean (f one) m0 F Q c H d R P (fun t i => f (z t i)) t
  | 0 => map_cst f one m0
  | t + 1 => by
    simp only [fmean, map_add', map_sub', map_act, map_cst, map_fmean f one P z t]

theorem map_smean (f : E' →ₗ[ℝ] E) (one : E') (P : ℕ → Matrix (Fin n) (Fin n) ℝ) (g : ℕ → Fin n → E') (T : ℕ) : ∀ k,
    (fun i => f (smean F Q c one P g T k i)) = smean F Q c (f one) P (fun t i => f (g t i)) T k
  | 0 => rfl
  | k + 1 => by
    simp only [smean, map_add', map_sub', map_act, map_cst, map_smean f one P g T k]

/-! ### Additional noise -/

section extra

variable {κ : Type} [Fintype κ] (T : ℕ) (F : ℕ → Matrix (Fin n) (Fin n) ℝ) (H : ∀ t, Matrix (ο t) (Fin n) ℝ)
  (U0 : Matrix (Fin n) (Fin n) ℝ) (UQ : ℕ → Matrix (Fin n) (Fin n) ℝ) (UR : ∀ t, Matrix (ο t) κ ℝ)

/-- Coefficients of the additional noises: of the initial state, of the transitions and of the observations. -/
abbrev Extra (n T : ℕ) (κ : Type) : Type := (Fin n → ℝ) × (Fin T → Fin n → ℝ) × (Fin T → κ → ℝ)

/-- The sum of the products of the coefficients. -/
def dotX (a b : Extra n T κ) : ℝ := a.1 ⬝ᵥ b.1 + ((∑ t, a.2.1 t ⬝ᵥ b.2.1 t) + ∑ t, a.2.2 t ⬝ᵥ b.2.2 t)

theorem dotX_nonneg (a : Extra n T κ) : 0 ≤ dotX T a a := by
  have h : ∀ {ι : Type} [Fintype ι] (v : ι → ℝ), 0 ≤ v ⬝ᵥ v := fun v =>
    Finset.sum_nonneg fun i _ => mul_self_nonneg (v i)
  exact add_nonneg (h _) (add_nonneg (Finset.sum_nonneg fun t _ => h _) (Finset.sum_nonneg fun t _ => h _))

/-- The additional noise of a transition. -/
def extraQ (t : ℕ) (i : Fin n) : Extra n T κ := (0, fun s => if (s : ℕ) = t then UQ t i else 0, 0)

/-- The additional noise of an observation. -/
def extraR (t : ℕ) (i : ο t) : Extra n T κ := (0, 0, fun s => if (s : ℕ) = t then UR t i else 0)

/-- The additional part of the states. -/
def extraX : ℕ → Fin n → Extra n T κ
  | 0 => fun i => (U0 i, 0, 0)
  | t + 1 => act (F t) (extraX t) + extraQ T UQ t

/-- The additional part of the observations. -/
def extraZ (t : ℕ) : ο t → Extra n T κ := act (H t) (extraX T F U0 UQ (κ := κ) (t + 1)) + extraR T UR t

/-- The form on the product. -/
def formX (B : E →ₗ[ℝ] E →ₗ[ℝ] ℝ) : (E × Extra n T κ) →ₗ[ℝ] (E × Extra n T κ) →ₗ[ℝ] ℝ :=
  LinearMap.mk₂ ℝ (fun a b => B a.1 b.1 + dotX T a.2 b.2)
    (fun a a' b => by
      simp only [dotX, Prod.fst_add, Prod.snd_add, map_add, LinearMap.add_apply, add_dotProduct, Pi.add_apply,
        Finset.sum_add_distrib]
      ring)
    (fun r a b => by
      simp only [dotX, Prod.smul_fst, Prod.smul_snd, map_smul, LinearMap.smul_apply, smul_dotProduct, Pi.smul_apply,
        ← Finset.smul_sum, smul_add])
    (fun a b b' => by
      simp only [dotX, Prod.fst_add, Prod.snd_add, map_add, dotProduct_add, Pi.add_apply, Finset.sum_add_distrib]
      ring)
    (fun r a b => by
      simp only [dotX, Prod.smul_fst, Prod.smul_snd, map_smul, dotProduct_smul, Pi.smul_apply, ← Finset.smul_sum, smul_add])

theorem formX_apply (B : E →ₗ[ℝ] E →ₗ[ℝ] ℝ) (a b : E × Extra n T κ) :
    formX T B a b = B a.1 b.1 + dotX T a.2 b.2 := rfl

variable {T F H}

theorem act_pair {ι κ' : Type*} [Fintype ι] [Fintype κ'] (A : Matrix ι κ' ℝ) (v : κ' → E) (w : κ' → E') :
    act A (fun j => (v j, w j)) = fun i => (act A v i, act A w i) := by
  funext i
  refine Prod.ext ?_ ?_
  · simp only [act, Prod.fst_sum, Prod.smul_fst]
  · simp only [act, Prod.snd_sum, Prod.smul_snd]

variable {B : E →ₗ[ℝ] E →ₗ[ℝ] ℝ} {one : E} {x : ℕ → Fin n → E} {z : ∀ t, ο t → E} {q : ℕ → Fin n → E}
  {r : ∀ t, ο t → E}

theorem sum_single_dot {ι : Type*} [Fintype ι] {t : ℕ} (ht : t < T) (a b : ι → ℝ) :
    (∑ s : Fin T, (if (s : ℕ) = t then a else 0) ⬝ᵥ (if (s : ℕ) = t then b else 0)) = a ⬝ᵥ b := by
  rw [Finset.sum_eq_single ⟨t, ht⟩]
  · simp
  · intro s _ hs
    rw [if_neg (fun h => hs (Fin.ext h)), zero_dotProduct]
  · intro h
    exact absurd (Finset.mem_univ _) h

/-- The model with additional noise. -/
theorem Model.inflate (M : Model B one T m0 P0 F Q c H d R x z q r) :
    Model (formX T B) (one, (0 : Extra n T κ)) T m0 (P0 + U0 * U0ᵀ) F (fun t => Q t + UQ t * (UQ t)ᵀ) c H d
      (fun t => R t + UR t * (UR t)ᵀ) (fun t i => (x t i, extraX T F U0 UQ t i))
      (fun t i => (z t i, extraZ T F H U0 UQ UR t i)) (fun t i => (q t i, extraQ T UQ t i))
      (fun t i => (r t i, extraR T UR t i)) where
  symm a b := by simp only [formX_apply, dotX, M.symm a.1 b.1, dotProduct_comm a.2.1, dotProduct_comm (a.2.2.1 _),
    dotProduct_comm (a.2.2.2 _)]
  dyn t ht := by
    rw [act_pair]
    funext i
    refine Prod.ext ?_ ?_
    · exact congrFun (M.dyn t ht) i
    · simp [extraX, cst]
  obs t ht := by
    rw [act_pair]
    funext i
    refine Prod.ext ?_ ?_
    · exact congrFun (M.obs t ht) i
    · simp [extraZ, cst]
  init_one i := by
    have := M.init_one i
    simpa [formX_apply, dotX, extraX] using this
  init_cov := by
    rw [← M.init_cov]
    ext i j
    simp [mom, formX_apply, dotX, extraX, cst, Matrix.mul_apply, dotProduct]
  q_cov t ht := by
    rw [← M.q_cov t ht]
    ext i j
    simp only [mom, Matrix.of_apply, formX_apply, dotX, extraQ, zero_dotProduct, Pi.zero_apply, Matrix.add_apply,
      sum_single_dot ht, Finset.sum_const_zero, zero_add, add_zero]
    rfl
  r_cov t ht := by
    rw [← M.r_cov t ht]
    ext i j
    simp only [mom, Matrix.of_apply, formX_apply, dotX, extraR, zero_dotProduct, Pi.zero_apply, Matrix.add_apply,
      sum_single_dot ht, Finset.sum_const_zero, zero_add]
    rfl
  q_one t ht i := by
    have := M.q_one t ht i
    simpa [formX_apply, dotX] using this
  r_one t ht i := by
    have := M.r_one t ht i
    simpa [formX_apply, dotX] using this
  q_init t ht i j := by
    have := M.q_init t ht i j
    simpa [formX_apply, dotX, extraX, extraQ] using this
  r_init t ht i j := by
    have := M.r_init t ht i j
    simpa [formX_apply, dotX, extraX, extraR] using this
  q_q t ht s hs hst i j := by
    have := M.q_q t ht s hs hst i j
    simp only [formX_apply, this, dotX, extraQ, zero_dotProduct, Pi.zero_apply, zero_add, Finset.sum_const_zero, add_zero]
    refine Finset.sum_eq_zero fun k _ => ?_
    by_cases h : (k : ℕ) = t
    · rw [if_neg (show ¬(k : ℕ) = s by omega), dotProduct_zero]
    · rw [if_neg h, zero_dotProduct]
  r_r t ht s hs hst i j := by
    have := M.r_r t ht s hs hst i j
    simp only [formX_apply, this, dotX, extraR, zero_dotProduct, Pi.zero_apply, zero_add, Finset.sum_const_zero]
    refine Finset.sum_eq_zero fun k _ => ?_
    by_cases h : (k : ℕ) = t
    · rw [if_neg (show ¬(k : ℕ) = s by omega), dotProduct_zero]
    · rw [if_neg h, zero_dotProduct]
  q_r t ht s hs i j := by
    have := M.q_r t ht s hs i j
    simp only [formX_apply, this, dotX, extraQ, extraR, zero_dotProduct, dotProduct_zero, Pi.zero_apply, zero_add,
      Finset.sum_const_zero]

theorem quad_mom (B : E →ₗ[ℝ] E →ₗ[ℝ] ℝ) (e : Fin n → E) (v : Fin n → ℝ) :
    v ⬝ᵥ mom B e e *ᵥ v = B (∑ i, v i • e i) (∑ i, v i • e i) := by
  simp only [map_sum, map_smul, LinearMap.sum_apply, LinearMap.smul_apply, mom, dotProduct, Matrix.mulVec,
    Matrix.of_apply, Finset.mul_sum, smul_eq_mul]
  rw [Finset.sum_comm]
  exact Finset.sum_congr rfl fun i _ => Finset.sum_congr rfl fun j _ => by ring

/-- The first component of an error in the product has at most its second moments. -/
theorem fst_le (B : E →ₗ[ℝ] E →ₗ[ℝ] ℝ) (e : Fin n → E × Extra n T κ) (v : Fin n → ℝ) :
    v ⬝ᵥ mom B (fun i => (e i).1) (fun i => (e i).1) *ᵥ v ≤ v ⬝ᵥ mom (formX T B) e e *ᵥ v := by
  rw [quad_mom, quad_mom, formX_apply]
  have : (∑ i, v i • e i).1 = ∑ i, v i • (e i).1 := by simp only [Prod.fst_sum, Prod.smul_fst]
  rw [this]
  exact le_add_of_nonneg_right (dotX_nonneg T _)

theorem fst_error {V : Matrix (Fin n) (Fin n) ℝ} {X' N' : Fin n → E × Extra n T κ} {X N : Fin n → E}
    (h1 : mom (formX T B) (X' - N') (X' - N') = V) (h2 : ∀ i, formX T B ((X' - N') i) (one, 0) = 0)
    (hX : ∀ i, (X' i).1 = X i) (hN : ∀ i, (N' i).1 = N i) :
    (∀ i, B ((X - N) i) one = 0) ∧ ∀ v : Fin n → ℝ, v ⬝ᵥ mom B (X - N) (X - N) *ᵥ v ≤ v ⬝ᵥ V *ᵥ v := by
  have he : X - N = fun i => ((X' - N') i).1 := by
    funext i
    rw [Pi.sub_apply, Pi.sub_apply, Prod.fst_sub, hX, hN]
  rw [he]
  refine ⟨fun i => ?_, fun v => ?_⟩
  · have := h2 i
    rw [formX_apply] at this
    simpa [dotX] using this
  · rw [← h1]
    exact fst_le B _ v

/-- The filter with more noise than there is: the error has mean zero and at most the covariance of the filter. -/
theorem Model.filter_le (M : Model B one T m0 P0 F Q c H d R x z q r) {Q' : ℕ → Matrix (Fin n) (Fin n) ℝ}
    {R' : ∀ t, Matrix (ο t) (ο t) ℝ} (P : ℕ → Matrix (Fin n) (Fin n) ℝ) (hP0 : P 0 = P0 + U0 * U0ᵀ)
    (hQ' : Q' = fun t => Q t + UQ t * (UQ t)ᵀ) (hR' : R' = fun t => R t + UR t * (UR t)ᵀ)
    (hP : ∀ t < T, P (t + 1) = condCov (F t * P t * (F t)ᵀ + Q' t) (H t) (R' t))
    (hS : ∀ t < T, (innovCov (F t * P t * (F t)ᵀ + Q' t) (H t) (R' t)).det ≠ 0) (t : ℕ) (ht : t ≤ T) :
    (∀ i, B ((x t - fmean one m0 F Q' c H d R' P z t) i) one = 0) ∧ ∀ v : Fin n → ℝ,
      v ⬝ᵥ mom B (x t - fmean one m0 F Q' c H d R' P z t) (x t - fmean one m0 F Q' c H d R' P z t) *ᵥ v ≤
        v ⬝ᵥ P t *ᵥ v := by
  subst hQ' hR'
  obtain ⟨h1, h2⟩ := (M.inflate U0 UQ UR).filter P hP0 hP hS t ht
  exact fst_error h1 (fun i => h2 (one_mem_data _ _ _) i) (fun _ => rfl) fun i =>
    congrFun (map_fmean (LinearMap.fst ℝ E (Extra n T κ)) (one, 0) P _ t) i

/-- The same for the smoother. -/
theorem Model.smoother_le (M : Model B one T m0 P0 F Q c H d R x z q r) {Q' : ℕ → Matrix (Fin n) (Fin n) ℝ}
    {R' : ∀ t, Matrix (ο t) (ο t) ℝ} (P : ℕ → Matrix (Fin n) (Fin n) ℝ) (hP0 : P 0 = P0 + U0 * U0ᵀ)
    (hQ' : Q' = fun t => Q t + UQ t * (UQ t)ᵀ) (hR' : R' = fun t => R t + UR t * (UR t)ᵀ)
    (hP : ∀ t < T, P (t + 1) = condCov (F t * P t * (F t)ᵀ + Q' t) (H t) (R' t))
    (hS : ∀ t < T, (innovCov (F t * P t * (F t)ᵀ + Q' t) (H t) (R' t)).det ≠ 0)
    (hG : ∀ t < T, (F t * P t * (F t)ᵀ + Q' t).det ≠ 0) (k : ℕ) (hk : k ≤ T) :
    (∀ i, B ((x (T - k) - smean F Q' c one P (fmean one m0 F Q' c H d R' P z) T k) i) one = 0) ∧ ∀ v : Fin n → ℝ,
      v ⬝ᵥ mom B (x (T - k) - smean F Q' c one P (fmean one m0 F Q' c H d R' P z) T k)
        (x (T - k) - smean F Q' c one P (fmean one m0 F Q' c H d R' P z) T k) *ᵥ v ≤
        v ⬝ᵥ scov F Q' P T k *ᵥ v := by
  subst hQ' hR'
  obtain ⟨-, h1, h2⟩ := (M.inflate U0 UQ UR).smoother P hP0 hP hS hG k hk
  refine fst_error h1 (fun i => h2 (one_mem_data _ _ _) i) (fun _ => rfl) fun i => ?_
  refine (congrFun (map_smean (LinearMap.fst ℝ E (Extra n T κ)) (one, 0) P _ T k) i).trans ?_
  have he := funext fun t => map_fmean (m0 := m0) (F := F) (Q := fun t => Q t + UQ t * (UQ t)ᵀ) (c := c) (H := H) (d := d)
    (R := fun t => R t + UR t * (UR t)ᵀ) (LinearMap.fst ℝ E (Extra n T κ)) (one, 0) P
    (fun t i => (z t i, extraZ T F H U0 UQ UR t i)) t
  rw [he]
  rfl

end extra

end

end Cuthbert.SecondOrder
