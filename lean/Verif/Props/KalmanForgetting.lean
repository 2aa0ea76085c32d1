import Verif.Props.MapTrajectory
import Verif.Props.Uncertainty

/-!
# The Kalman filter and smoother forget the distant past (C94)
-/

namespace Cuthbert.Kalman
open Matrix Cuthbert Cuthbert.Spec

noncomputable section

set_option linter.unusedSectionVars false

variable {nx ny : ℕ} {Inp Inp' K K' : Type}

/-! ## Specification -/

/-- In no direction is `d` larger than `√c` standard deviations of a law with covariance `P`. -/
def Within {ι : Type*} [Fintype ι] (c : ℝ) (d : ι → ℝ) (P : Matrix ι ι ℝ) : Prop :=
  ∀ v : ι → ℝ, (v ⬝ᵥ d) ^ 2 ≤ c * (v ⬝ᵥ P *ᵥ v)

/-- The difference `D` of two covariances is small compared with both. -/
def CovWithin {ι : Type*} [Fintype ι] (c : ℝ) (D P P' : Matrix ι ι ℝ) : Prop :=
  ∀ v w : ι → ℝ, (v ⬝ᵥ D *ᵥ w) ^ 2 ≤ c * (v ⬝ᵥ P *ᵥ v) * (w ⬝ᵥ P' *ᵥ w)

/-- The noise `Q` is at least `δ` times the covariance `P` in every direction. -/
def NoiseDominates {ι : Type*} [Fintype ι] (δ : ℝ) (P Q : Matrix ι ι ℝ) : Prop :=
  ∀ v : ι → ℝ, δ * (v ⬝ᵥ P *ᵥ v) ≤ v ⬝ᵥ Q *ᵥ v

/-! ## One step -/

section step
variable {ι ο : Type*} [Fintype ι] [DecidableEq ι] [Fintype ο] [DecidableEq ο]

theorem quad_conj (A : Matrix ο ι ℝ) (P : Matrix ι ι ℝ) (v w : ο → ℝ) :
    v ⬝ᵥ (A * P * Aᵀ) *ᵥ w = (Aᵀ *ᵥ v) ⬝ᵥ P *ᵥ (Aᵀ *ᵥ w) := by
  rw [dot_transpose]
  simp only [Matrix.mulVec_mulVec, Matrix.mul_assoc]

theorem par_split {P J : Matrix ι ι ℝ} (hP : IsGram P) (hJ : IsGram J) (v : ι → ℝ) :
    v ⬝ᵥ (elimD P J * P * (elimD P J)ᵀ) *ᵥ v ≤ v ⬝ᵥ par P J *ᵥ v := by
  have h : par P J = elimD P J * P * (elimD P J)ᵀ + elimD P J * (P * J * Pᵀ) * (elimD P J)ᵀ := by
    have e : P + P * J * Pᵀ = (1 + P * J) * P := by rw [hP.symm, Matrix.add_mul, Matrix.one_mul]
    rw [← Matrix.add_mul, ← Matrix.mul_add, e, ← Matrix.mul_assoc, elimD_left hP hJ, Matrix.one_mul,
      par_eq_transpose hP hJ]
  have h1 := gram_quad_nonneg ((hJ.conj P).conj (elimD P J)) v
  rw [h, Matrix.add_mulVec, dotProduct_add]
  linarith

/-- Adding information leaves a difference as small as it was, relative to the smaller covariance. -/
theorem Within.par {c : ℝ} (hc : 0 ≤ c) {d : ι → ℝ} {P J : Matrix ι ι ℝ} (hP : IsGram P) (hJ : IsGram J)
    (h : Within c d P) : Within c (elimD P J *ᵥ d) (par P J) := by
  intro v
  have h1 := h ((elimD P J)ᵀ *ᵥ v)
  rw [dot_transpose, ← quad_conj] at h1
  exact h1.trans (mul_le_mul_of_nonneg_left (par_split hP hJ v) hc)

theorem pred_quad {δ : ℝ} (hδ : 0 ≤ δ) {P F Q : Matrix ι ι ℝ} (hQ : NoiseDominates δ (F * P * Fᵀ) Q) (v : ι → ℝ) :
    v ⬝ᵥ (F * P * Fᵀ) *ᵥ v ≤ 1 / (1 + δ) * (v ⬝ᵥ (F * P * Fᵀ + Q) *ᵥ v) := by
  have h1 := hQ v
  rw [Matrix.add_mulVec, dotProduct_add, one_div, inv_mul_eq_div, le_div_iff₀ (by linarith)]
  linarith

theorem Within.pred {c δ : ℝ} (hc : 0 ≤ c) (hδ : 0 ≤ δ) {d : ι → ℝ} {P F Q : Matrix ι ι ℝ}
    (hQ : NoiseDominates δ (F * P * Fᵀ) Q) (h : Within c d P) :
    Within (c * (1 / (1 + δ))) (F *ᵥ d) (F * P * Fᵀ + Q) := by
  intro v
  have h1 := h (Fᵀ *ᵥ v)
  rw [dot_transpose, ← quad_conj] at h1
  rw [mul_assoc]
  exact h1.trans (mul_le_mul_of_nonneg_left (pred_quad hδ hQ v) hc)

theorem condMean_sub (m m' : ι → ℝ) {P : Matrix ι ι ℝ} (H : Matrix ο ι ℝ) (d : ο → ℝ) {R : Matrix ο ο ℝ}
    (hP : IsGram P) (hR : IsGram R) (hd : R.det ≠ 0) (y : ο → ℝ) :
    condMean m P H d R y - condMean m' P H d R y = elimD P (obsInfo H R) *ᵥ (m - m') := by
  have h1 := condMean_info m H d hP hR hd y 0
  have h2 := condMean_info m' H d hP hR hd y 0
  rw [Matrix.mulVec_zero, add_zero, zero_add] at h1 h2
  obtain ⟨a, ha⟩ : ∃ a, a = condMean m P H d R y := ⟨_, rfl⟩
  obtain ⟨b, hb⟩ : ∃ b, b = condMean m' P H d R y := ⟨_, rfl⟩
  rw [← ha] at h1 ⊢
  rw [← hb] at h2 ⊢
  have h3 : (1 + P * obsInfo H R) *ᵥ (a - b) = m - m' := by
    have h4 : P *ᵥ (Hᵀ *ᵥ (R⁻¹ *ᵥ (y - (H *ᵥ a + d)))) - P *ᵥ (Hᵀ *ᵥ (R⁻¹ *ᵥ (y - (H *ᵥ b + d)))) =
        -((P * obsInfo H R) *ᵥ (a - b)) := by
      rw [← Matrix.mulVec_sub, ← Matrix.mulVec_sub, ← Matrix.mulVec_sub]
      have h5 : y - (H *ᵥ a + d) - (y - (H *ᵥ b + d)) = -(H *ᵥ (a - b)) := by
        rw [Matrix.mulVec_sub]
        abel
      rw [h5]
      simp only [obsInfo, Matrix.mulVec_neg, Matrix.mulVec_mulVec, Matrix.mul_assoc]
    rw [Matrix.add_mulVec, Matrix.one_mulVec]
    have h6 : a - b = m - m' + -((P * obsInfo H R) *ᵥ (a - b)) := by
      rw [← h4]
      nth_rw 1 [h1]
      nth_rw 1 [h2]
      abel
    nth_rw 1 [h6]
    abel
  rw [← h3, Matrix.mulVec_mulVec, elimD_left hP (obsInfo_gram hR), Matrix.one_mulVec]

theorem par_sub {P P' J : Matrix ι ι ℝ} (hP : IsGram P) (hP' : IsGram P') (hJ : IsGram J) :
    par P J - par P' J = elimD P J * (P - P') * (elimD P' J)ᵀ := by
  have h1 : P - P' = P * (1 + J * P') - (1 + P * J) * P' := by
    simp only [Matrix.mul_add, Matrix.add_mul, Matrix.mul_one, Matrix.one_mul, Matrix.mul_assoc]
    abel
  rw [h1, Matrix.mul_sub, Matrix.sub_mul]
  congr 1
  · rw [← Matrix.mul_assoc, Matrix.mul_assoc, elimD_transpose_left hP' hJ, Matrix.mul_one, Kalman.par]
  · rw [← Matrix.mul_assoc, elimD_left hP hJ, Matrix.one_mul, par_eq_transpose hP' hJ]

theorem CovWithin.step {c a b : ℝ} {D P P' : Matrix ι ι ℝ} {A A' P₁ P₁' : Matrix ι ι ℝ} (hc : 0 ≤ c)
    (hP : IsGram P) (hP' : IsGram P') (h : CovWithin c D P P')
    (h1 : ∀ v, v ⬝ᵥ (A * P * Aᵀ) *ᵥ v ≤ a * (v ⬝ᵥ P₁ *ᵥ v))
    (h2 : ∀ v, v ⬝ᵥ (A' * P' * A'ᵀ) *ᵥ v ≤ b * (v ⬝ᵥ P₁' *ᵥ v)) :
    CovWithin (c * (a * b)) (A * D * A'ᵀ) P₁ P₁' := by
  intro v w
  have h3 := h (Aᵀ *ᵥ v) (A'ᵀ *ᵥ w)
  have e : v ⬝ᵥ (A * D * A'ᵀ) *ᵥ w = (Aᵀ *ᵥ v) ⬝ᵥ D *ᵥ (A'ᵀ *ᵥ w) := by
    rw [dot_transpose]
    simp only [Matrix.mulVec_mulVec, Matrix.mul_assoc]
  rw [← e, ← quad_conj, ← quad_conj] at h3
  have h4 := gram_quad_nonneg (hP.conj A) v
  have h5 := gram_quad_nonneg (hP'.conj A') w
  have h6 := h1 v
  have h7 := h2 w
  have h8 : v ⬝ᵥ (A * P * Aᵀ) *ᵥ v * (w ⬝ᵥ (A' * P' * A'ᵀ) *ᵥ w) ≤
      a * (v ⬝ᵥ P₁ *ᵥ v) * (b * (w ⬝ᵥ P₁' *ᵥ w)) := mul_le_mul h6 h7 h5 (h4.trans h6)
  calc _ ≤ c * (v ⬝ᵥ (A * P * Aᵀ) *ᵥ v) * (w ⬝ᵥ (A' * P' * A'ᵀ) *ᵥ w) := h3
    _ = c * (v ⬝ᵥ (A * P * Aᵀ) *ᵥ v * (w ⬝ᵥ (A' * P' * A'ᵀ) *ᵥ w)) := by ring
    _ ≤ c * (a * (v ⬝ᵥ P₁ *ᵥ v) * (b * (w ⬝ᵥ P₁' *ᵥ w))) := mul_le_mul_of_nonneg_left h8 hc
    _ = _ := by ring

end step

/-- One filter step shrinks a difference of means, in units of the reported standard deviations. -/
theorem kfStep_within {c δ : ℝ} (hc : 0 ≤ c) (hδ : 0 ≤ δ) {k k' : KF nx} (s : Step nx ny) (hk : IsGram k.P)
    (he : k.P = k'.P) (hR : s.R.det ≠ 0) (hQ : NoiseDominates δ (s.F * k.P * s.Fᵀ) (s.cholQ * s.cholQᵀ))
    (h : Within c (k.m - k'.m) k.P) :
    Within (c * (1 / (1 + δ))) ((kfStep k s).m - (kfStep k' s).m) (kfStep k s).P := by
  have h1 := (h.pred hc hδ hQ).par (J := stepInfo s) (mul_nonneg hc (by positivity)) (pred_gram hk s) (stepInfo_gram s)
  have h2 : (kfStep k s).m - (kfStep k' s).m =
      elimD (s.F * k.P * s.Fᵀ + s.cholQ * s.cholQᵀ) (stepInfo s) *ᵥ (s.F *ᵥ (k.m - k'.m)) := by
    rw [kfStep, kfStep, ← he]
    simp only
    rw [condMean_sub _ _ _ _ (pred_gram hk s) s.R_gram hR, stepInfo, add_sub_add_right_eq_sub, ← Matrix.mulVec_sub]
  rw [h2, kfStep_P k hk s hR]
  exact h1

theorem kfStep_covWithin {c δ : ℝ} (hc : 0 ≤ c) (hδ : 0 ≤ δ) {k k' : KF nx} (s : Step nx ny) (hk : IsGram k.P)
    (hk' : IsGram k'.P) (hR : s.R.det ≠ 0) (hQ : NoiseDominates δ (s.F * k.P * s.Fᵀ) (s.cholQ * s.cholQᵀ))
    (hQ' : NoiseDominates δ (s.F * k'.P * s.Fᵀ) (s.cholQ * s.cholQᵀ)) (h : CovWithin c (k.P - k'.P) k.P k'.P) :
    CovWithin (c * (1 / (1 + δ)) ^ 2) ((kfStep k s).P - (kfStep k' s).P) (kfStep k s).P (kfStep k' s).P := by
  have hδ' : 0 ≤ 1 / (1 + δ) := by positivity
  have h1 := h.step hc hk hk' (pred_quad hδ hQ) (pred_quad hδ hQ')
  have h2 : s.F * (k.P - k'.P) * s.Fᵀ = (s.F * k.P * s.Fᵀ + s.cholQ * s.cholQᵀ) -
      (s.F * k'.P * s.Fᵀ + s.cholQ * s.cholQᵀ) := by
    rw [Matrix.mul_sub, Matrix.sub_mul, add_sub_add_right_eq_sub]
  rw [h2] at h1
  have h3 := h1.step (A := elimD (s.F * k.P * s.Fᵀ + s.cholQ * s.cholQᵀ) (stepInfo s))
    (A' := elimD (s.F * k'.P * s.Fᵀ + s.cholQ * s.cholQᵀ) (stepInfo s)) (a := 1) (b := 1)
    (P₁ := par (s.F * k.P * s.Fᵀ + s.cholQ * s.cholQᵀ) (stepInfo s))
    (P₁' := par (s.F * k'.P * s.Fᵀ + s.cholQ * s.cholQᵀ) (stepInfo s)) (mul_nonneg hc (by positivity))
    (pred_gram hk s) (pred_gram hk' s)
    (fun v => by rw [one_mul]; exact par_split (pred_gram hk s) (stepInfo_gram s) v)
    (fun v => by rw [one_mul]; exact par_split (pred_gram hk' s) (stepInfo_gram s) v)
  rw [← par_sub (pred_gram hk s) (pred_gram hk' s) (stepInfo_gram s), ← kfStep_P k hk s hR, ← kfStep_P k' hk' s hR,
    mul_one, mul_one, ← pow_two] at h3
  exact h3

/-! ## Smoothing -/

/-- The adjoint of the difference of two trajectories that satisfy the same adjoint equations. -/
theorem adjoint_sub : ∀ (ss : List (Step nx ny)) (x w x' w' : ℕ → Fin nx → ℝ) (l l' : Fin nx → ℝ),
    DrivenFrom ss x w → Adjoint ss x w l → DrivenFrom ss x' w' → Adjoint ss x' w' l' →
    l - l' = -(futureInfo ss *ᵥ (x 0 - x' 0))
  | [], _, _, _, _, _, _, _, h, _, h' => by
    rw [Adjoint] at h h'
    rw [h, h', futureInfo, Matrix.zero_mulVec, sub_self, neg_zero]
  | s :: ss, x, w, x', w', l, l', hd, ha, hd', ha' => by
    obtain ⟨p, a1, a2, a3⟩ := ha
    obtain ⟨p', a1', a2', a3'⟩ := ha'
    have ih := adjoint_sub ss _ _ _ _ p p' hd.2 a1 hd'.2 a1'
    obtain ⟨μ, hμ⟩ : ∃ μ, μ = p + (obsH s.y s.H)ᵀ *ᵥ (s.R⁻¹ *ᵥ Spec.residual s (x 1)) := ⟨_, rfl⟩
    obtain ⟨μ', hμ'⟩ : ∃ μ', μ' = p' + (obsH s.y s.H)ᵀ *ᵥ (s.R⁻¹ *ᵥ Spec.residual s (x' 1)) := ⟨_, rfl⟩
    rw [← hμ] at a2 a3
    rw [← hμ'] at a2' a3'
    have h1 : μ - μ' = -((stepInfo s + futureInfo ss) *ᵥ (x 1 - x' 1)) := by
      have h2 : (obsH s.y s.H)ᵀ *ᵥ (s.R⁻¹ *ᵥ Spec.residual s (x 1)) -
          (obsH s.y s.H)ᵀ *ᵥ (s.R⁻¹ *ᵥ Spec.residual s (x' 1)) = -(stepInfo s *ᵥ (x 1 - x' 1)) := by
        rw [← Matrix.mulVec_sub, ← Matrix.mulVec_sub]
        have h3 : Spec.residual s (x 1) - Spec.residual s (x' 1) = -(obsH s.y s.H *ᵥ (x 1 - x' 1)) := by
          rw [Spec.residual, Spec.residual, Matrix.mulVec_sub]
          abel
        rw [h3]
        simp only [stepInfo, obsInfo, Matrix.mulVec_neg, Matrix.mulVec_mulVec, Matrix.mul_assoc]
      rw [hμ, hμ', add_sub_add_comm, ih, h2, Matrix.add_mulVec]
      simp only [zero_add]
      abel
    have h4 : x 1 - x' 1 = s.F *ᵥ (x 0 - x' 0) + (s.cholQ * s.cholQᵀ) *ᵥ (μ - μ') := by
      rw [hd.1, hd'.1, a2, a2']
      simp only [Matrix.mulVec_sub, Matrix.mulVec_mulVec]
      abel
    have h5 : (1 + (stepInfo s + futureInfo ss) * (s.cholQ * s.cholQᵀ)) *ᵥ (μ - μ') =
        -((stepInfo s + futureInfo ss) *ᵥ (s.F *ᵥ (x 0 - x' 0))) := by
      rw [h4, Matrix.mulVec_add, neg_add] at h1
      rw [Matrix.add_mulVec, Matrix.one_mulVec]
      nth_rw 1 [h1]
      rw [← Matrix.mulVec_mulVec (μ - μ') (stepInfo s + futureInfo ss)]
      abel
    have hJ := (stepInfo_gram s).add (futureInfo_gram ss)
    have h6 : μ - μ' = -(par (stepInfo s + futureInfo ss) (s.cholQ * s.cholQᵀ) *ᵥ (s.F *ᵥ (x 0 - x' 0))) := by
      have h7 := congrArg (elimD (stepInfo s + futureInfo ss) (s.cholQ * s.cholQᵀ) *ᵥ ·) h5
      simp only [Matrix.mulVec_mulVec, Matrix.mulVec_neg] at h7
      rw [elimD_left hJ (isGram_of s.cholQ), Matrix.one_mulVec] at h7
      rw [h7, par]
      simp only [Matrix.mulVec_mulVec, Matrix.mul_assoc]
    rw [a3, a3', ← Matrix.mulVec_sub, h6, futureInfo, Matrix.mulVec_neg]
    simp only [Matrix.mulVec_mulVec, Matrix.mul_assoc]

/-- Smoothed means of two filter states followed by the same steps. -/
theorem backMarg_sub {ss : List (Step nx ny)} {k k' : KF nx} {bs bs' : List (BStep nx)} (hk : IsGram k.P)
    (he : k.P = k'.P) (hR : ∀ s ∈ ss, s.R.det ≠ 0) (hc : IsBackwardChain k ss bs) (hc' : IsBackwardChain k' ss bs') :
    (backMarg (ss.foldl kfStep k).m 0 bs).1 - (backMarg (ss.foldl kfStep k').m 0 bs').1 =
      elimD k.P (futureInfo ss) *ᵥ (k.m - k'.m) := by
  obtain ⟨l, w, h1, h2, h3⟩ := backMeans_adjoint ss k bs hk hR hc
  obtain ⟨l', w', h1', h2', h3'⟩ := backMeans_adjoint ss k' bs' (he ▸ hk) hR hc'
  have h4 := adjoint_sub ss _ _ _ _ l l' h2 h3 h2' h3'
  obtain ⟨a, ha⟩ : ∃ a, a = backMeans (ss.foldl kfStep k).m bs 0 := ⟨_, rfl⟩
  obtain ⟨b, hb⟩ : ∃ b, b = backMeans (ss.foldl kfStep k').m bs' 0 := ⟨_, rfl⟩
  rw [← ha] at h1 h4
  rw [← hb] at h1' h4
  have h5 : (1 + k.P * futureInfo ss) *ᵥ (a - b) = k.m - k'.m := by
    have h6 : k.P *ᵥ (l - l') = -((k.P * futureInfo ss) *ᵥ (a - b)) := by
      rw [h4, Matrix.mulVec_neg, Matrix.mulVec_mulVec]
    have h7 : a - b = k.m - k'.m + k.P *ᵥ (l - l') := by
      rw [h1, h1', ← he, Matrix.mulVec_sub]
      abel
    rw [Matrix.add_mulVec, Matrix.one_mulVec]
    nth_rw 1 [h7]
    rw [h6]
    abel
  have h8 : a - b = elimD k.P (futureInfo ss) *ᵥ (k.m - k'.m) := by
    rw [← h5, Matrix.mulVec_mulVec, elimD_left hk (futureInfo_gram ss), Matrix.one_mulVec]
  rw [ha, hb] at h8
  exact h8

/-! ## Runs -/

/-- The mean of a filtering state. -/
theorem filter_mean_cov (qr : QR) (rng : Prng K) (cb : Callbacks nx ny Inp) (u₀ : Inp) (us : List Inp) (parallel : Bool)
    (key : Option K) (hR : ∀ u ∈ us, (stepOf cb u).R.det ≠ 0) {states : List (FilterState nx Inp)}
    (h : (filter rng (buildFilter qr cb) (u₀ :: us) parallel key).result = .ok states) {t : ℕ} {s : FilterState nx Inp}
    (hs : states[t]? = some s) : t ≤ us.length ∧ s.mean = some (kfAt cb u₀ us t).m ∧
      ∃ L, s.cholCov = some L ∧ L * Lᵀ = (kfAt cb u₀ us t).P := by
  obtain ⟨h1, -, h3⟩ := filter_run_facts qr rng cb u₀ us parallel key (fun u hu => ScanOk.of_R _ (hR u hu)) states h
  have ht : t ≤ us.length := by
    have := (List.getElem?_eq_some_iff.mp hs).1
    omega
  obtain ⟨s', e, h4, h5, h6⟩ := h3 t ht
  rw [hs, Option.some.injEq] at h4
  subst h4
  exact ⟨ht, by simp only [FilterState.mean, h5, Option.map_some]; rw [h6.b]; rfl, e.U,
    by simp [FilterState.cholCov, h5], h6.C⟩

theorem smoother_mean_sub (qr qr' : QR) (rng rng₁ : Prng K) (rng' rng₁' : Prng K') (cb : Callbacks nx ny Inp)
    (cb' : Callbacks nx ny Inp') {u₀ : Inp} {us : List Inp} {u₀' : Inp'} {us' : List Inp'} (hus : us ≠ [])
    (hus' : us' ≠ []) (parallel parallel₁ parallel' parallel₁' : Bool) (key key₁ : Option K) (key' key₁' : Option K')
    (opts : SmootherOpts nx Inp) (opts' : SmootherOpts nx Inp')
    (hR : ∀ u ∈ us, (stepOf cb u).R.det ≠ 0) (hR' : ∀ u ∈ us', (stepOf cb' u).R.det ≠ 0)
    {filterStates : List (FilterState nx Inp)} {filterStates' : List (FilterState nx Inp')}
    (hf : (filter rng (buildFilter qr cb) (u₀ :: us) parallel key).result = .ok filterStates)
    (hf' : (filter rng' (buildFilter qr' cb') (u₀' :: us') parallel' key').result = .ok filterStates')
    (hP : ∀ (t : ℕ) s L u, filterStates[t]? = some s → s.cholCov = some L → us[t]? = some u →
      ((stepOf cb u).F * (L * Lᵀ) * ((stepOf cb u).F)ᵀ +
        (stepOf cb u).cholQ * ((stepOf cb u).cholQ)ᵀ).det ≠ 0)
    (hP' : ∀ (t : ℕ) s L u, filterStates'[t]? = some s → s.cholCov = some L → us'[t]? = some u →
      ((stepOf cb' u).F * (L * Lᵀ) * ((stepOf cb' u).F)ᵀ +
        (stepOf cb' u).cholQ * ((stepOf cb' u).cholQ)ᵀ).det ≠ 0)
    {states : List (SmootherState nx Inp)} {states' : List (SmootherState nx Inp')}
    (h : (smoother rng₁ FilterState.modelInputs (fun u => .ok (opts.dummy u))
        (buildSmoother qr cb.getDynamics opts) filterStates none parallel₁ key₁).result = .ok states)
    (h' : (smoother rng₁' FilterState.modelInputs (fun u => .ok (opts'.dummy u))
        (buildSmoother qr' cb'.getDynamics opts') filterStates' none parallel₁' key₁').result = .ok states')
    {t : ℕ} {s : SmootherState nx Inp} {s' : SmootherState nx Inp'} (hs : states[t]? = some s)
    (hs' : states'[t]? = some s') (hcov : (kfAt cb u₀ us t).P = (kfAt cb' u₀' us' t).P)
    (hdrop : (us.drop t).map (stepOf cb) = (us'.drop t).map (stepOf cb')) :
    ∃ m m', s.mean = some m ∧ s'.mean = some m' ∧
      m - m' = elimD (kfAt cb u₀ us t).P (futureInfo ((us.drop t).map (stepOf cb))) *ᵥ
        ((kfAt cb u₀ us t).m - (kfAt cb' u₀' us' t).m) := by
  obtain ⟨st, LT, h1, h2, -, h4⟩ := smoother_run_facts qr rng rng₁ cb u₀ us hus parallel parallel₁ key key₁ opts
    (fun u hu => ScanOk.of_R _ (hR u hu)) filterStates hf hP none (.inl rfl)
  rw [h, Except.ok.injEq] at h1
  subst h1
  obtain ⟨st', LT', h1', h2', -, h4'⟩ := smoother_run_facts qr' rng' rng₁' cb' u₀' us' hus' parallel' parallel₁' key'
    key₁' opts' (fun u hu => ScanOk.of_R _ (hR' u hu)) filterStates' hf' hP' none (.inl rfl)
  rw [h', Except.ok.injEq] at h1'
  subst h1'
  have ht : t ≤ us.length := by
    have := (List.getElem?_eq_some_iff.mp hs).1
    omega
  have ht' : t ≤ us'.length := by
    have := (List.getElem?_eq_some_iff.mp hs').1
    omega
  obtain ⟨s₁, e, bs, h5, h6, h7, h8, -⟩ := h4 t ht
  rw [hs, Option.some.injEq] at h5
  subst h5
  obtain ⟨s₁', e', bs', h5', h6', h7', h8', -⟩ := h4' t ht'
  rw [hs', Option.some.injEq] at h5'
  subst h5'
  simp only [sForm, SElem.mk.injEq] at h8 h8'
  refine ⟨e.g, e'.g, by simp [SmootherState.mean, h6], by simp [SmootherState.mean, h6'], ?_⟩
  have hT : ∀ {I : Type} (c : Callbacks nx ny I) (v₀ : I) (vs : List I),
      kfAt c v₀ vs vs.length = ((vs.drop t).map (stepOf c)).foldl kfStep (kfAt c v₀ vs t) := by
    intro I c v₀ vs
    rw [kfAt, kfAt, ← List.foldl_append, ← List.map_append, List.take_append_drop, List.take_length]
  rw [h8.1, h8'.1, backMarg_mean, backMarg_mean _ LT', hT cb, hT cb', ← hdrop]
  rw [← hdrop] at h7'
  refine backMarg_sub (kfAt_gram cb u₀ us hR t) hcov (fun s hs => ?_) h7 h7'
  obtain ⟨u, hu, rfl⟩ := List.mem_map.mp hs
  exact hR u (List.mem_of_mem_drop hu)

theorem drop_step {ι κ : Type*} {f : ι → κ} {ι' : Type*} {g : ι' → κ} {us : List ι} {us' : List ι'} {r t : ℕ} (hrt : r ≤ t)
    (h : (us.drop r).map f = (us'.drop r).map g) : (us.drop t).map f = (us'.drop t).map g := by
  have h1 := congrArg (List.drop (t - r)) h
  rwa [← List.map_drop, ← List.map_drop, List.drop_drop, List.drop_drop, Nat.add_sub_cancel' hrt] at h1

theorem step_eq {ι κ : Type*} {f : ι → κ} {ι' : Type*} {g : ι' → κ} {us : List ι} {us' : List ι'} {r t : ℕ} (hrt : r ≤ t)
    (h : (us.drop r).map f = (us'.drop r).map g) {u : ι} (hu : us[t]? = some u) :
    ∃ u', us'[t]? = some u' ∧ g u' = f u := by
  have h1 := congrArg (fun l => l[0]?) (drop_step hrt h)
  simp only [List.getElem?_map, List.getElem?_drop, add_zero, hu, Option.map_some] at h1
  exact Option.map_eq_some_iff.mp h1.symm

/-- Two filters that share their steps from time `r` on and their covariance at time `r`. -/
theorem kfAt_within {C δ : ℝ} (hC : 0 ≤ C) (hδ : 0 ≤ δ) (cb : Callbacks nx ny Inp) (cb' : Callbacks nx ny Inp')
    (u₀ : Inp) (us : List Inp) (u₀' : Inp') (us' : List Inp') (hR : ∀ u ∈ us, (stepOf cb u).R.det ≠ 0) {r : ℕ}
    (hsame : (us.drop r).map (stepOf cb) = (us'.drop r).map (stepOf cb'))
    (hQ : ∀ t ≥ r, ∀ u, us[t]? = some u → NoiseDominates δ ((stepOf cb u).F * (kfAt cb u₀ us t).P * ((stepOf cb u).F)ᵀ)
      ((stepOf cb u).cholQ * ((stepOf cb u).cholQ)ᵀ))
    (hcov : (kfAt cb u₀ us r).P = (kfAt cb' u₀' us' r).P)
    (hmean : Within C ((kfAt cb u₀ us r).m - (kfAt cb' u₀' us' r).m) (kfAt cb u₀ us r).P) :
    ∀ n, r + n ≤ us.length → (kfAt cb u₀ us (r + n)).P = (kfAt cb' u₀' us' (r + n)).P ∧
      Within (C * (1 / (1 + δ)) ^ n) ((kfAt cb u₀ us (r + n)).m - (kfAt cb' u₀' us' (r + n)).m)
        (kfAt cb u₀ us (r + n)).P := by
  intro n
  induction n with
  | zero =>
    intro _
    rw [pow_zero, mul_one]
    exact ⟨hcov, hmean⟩
  | succ n ih =>
    intro hn
    obtain ⟨i1, i2⟩ := ih (by omega)
    have hlt : r + n < us.length := by omega
    have hu : us[r + n]? = some us[r + n] := List.getElem?_eq_getElem hlt
    obtain ⟨u', hu', he⟩ := step_eq (Nat.le_add_right r n) hsame hu
    have hg := kfAt_gram cb u₀ us hR (r + n)
    have hRu := hR _ (List.mem_of_getElem? hu)
    rw [← Nat.add_assoc, kfAt_succ cb u₀ us _ _ hu, kfAt_succ cb' u₀' us' _ _ hu', he]
    refine ⟨?_, ?_⟩
    · rw [kfStep_P _ hg _ hRu, kfStep_P _ (i1 ▸ hg) _ hRu, i1]
    · rw [pow_succ, ← mul_assoc]
      exact kfStep_within (mul_nonneg hC (by positivity)) hδ _ hg i1 hRu (hQ _ (Nat.le_add_right r n) _ hu) i2

/-- C94, filter. Run two filters whose initial states and first `r` steps may differ (other observations, another
initial mean) but whose steps agree from time `r` on, and which report the same covariance at time `r`. If the process
noise is at least `δ` times the propagated covariance, then every later difference between the filtered means, measured
in standard deviations the filter reports in any direction `v`, has shrunk by `(1 + δ)^(-1/2)` per step. All
combinations of modes. -/
theorem filter_forgets_mean (qr qr' : QR) (rng : Prng K) (rng' : Prng K') (cb : Callbacks nx ny Inp)
    (cb' : Callbacks nx ny Inp') {u₀ : Inp} {us : List Inp} {u₀' : Inp'} {us' : List Inp'}
    (parallel parallel' : Bool) (key : Option K) (key' : Option K')
    (hR : ∀ u ∈ us, (stepOf cb u).R.det ≠ 0) (hR' : ∀ u ∈ us', (stepOf cb' u).R.det ≠ 0)
    {states : List (FilterState nx Inp)} {states' : List (FilterState nx Inp')}
    (h : (filter rng (buildFilter qr cb) (u₀ :: us) parallel key).result = .ok states)
    (h' : (filter rng' (buildFilter qr' cb') (u₀' :: us') parallel' key').result = .ok states')
    {r : ℕ} (hsame : (us.drop r).map (stepOf cb) = (us'.drop r).map (stepOf cb')) {δ : ℝ} (hδ : 0 ≤ δ)
    (hQ : ∀ t ≥ r, ∀ s L u, states[t]? = some s → s.cholCov = some L → us[t]? = some u →
      NoiseDominates δ ((stepOf cb u).F * (L * Lᵀ) * ((stepOf cb u).F)ᵀ)
        ((stepOf cb u).cholQ * ((stepOf cb u).cholQ)ᵀ))
    {sr : FilterState nx Inp} {sr' : FilterState nx Inp'} {m m' : Fin nx → ℝ} {L L' : Matrix (Fin nx) (Fin nx) ℝ}
    (hr : states[r]? = some sr) (hr' : states'[r]? = some sr') (hm : sr.mean = some m) (hm' : sr'.mean = some m')
    (hL : sr.cholCov = some L) (hL' : sr'.cholCov = some L') (hcov : L * Lᵀ = L' * L'ᵀ) {C : ℝ} (hC : 0 ≤ C)
    (hmean : Within C (m - m') (L * Lᵀ)) (t : ℕ) (ht : r ≤ t) (s : FilterState nx Inp) (s' : FilterState nx Inp')
    (hs : states[t]? = some s) (hs' : states'[t]? = some s') :
    ∃ mt mt' Lt Lt', s.mean = some mt ∧ s'.mean = some mt' ∧ s.cholCov = some Lt ∧ s'.cholCov = some Lt' ∧
      Lt * Ltᵀ = Lt' * Lt'ᵀ ∧
      ∀ v : Fin nx → ℝ, (v ⬝ᵥ (mt - mt')) ^ 2 ≤ C * (1 / (1 + δ)) ^ (t - r) * (v ⬝ᵥ (Lt * Ltᵀ) *ᵥ v) := by
  obtain ⟨-, a1, A, a2, a3⟩ := filter_mean_cov qr rng cb u₀ us parallel key hR h hr
  obtain ⟨-, b1, B, b2, b3⟩ := filter_mean_cov qr' rng' cb' u₀' us' parallel' key' hR' h' hr'
  rw [hm, Option.some.injEq] at a1
  rw [hm', Option.some.injEq] at b1
  rw [hL, Option.some.injEq] at a2
  rw [hL', Option.some.injEq] at b2
  subst a1 b1 a2 b2
  rw [a3] at hmean
  rw [a3, b3] at hcov
  obtain ⟨htl, c1, Lt, c2, c3⟩ := filter_mean_cov qr rng cb u₀ us parallel key hR h hs
  obtain ⟨-, d1, Lt', d2, d3⟩ := filter_mean_cov qr' rng' cb' u₀' us' parallel' key' hR' h' hs'
  obtain ⟨k1, k2⟩ := kfAt_within hC hδ cb cb' u₀ us u₀' us' hR hsame (fun i hi u hu => by
    have hil : i < states.length := by
      have h1 := (List.getElem?_eq_some_iff.mp hu).1
      have h2 := (filter_run_facts qr rng cb u₀ us parallel key (fun u hu => ScanOk.of_R _ (hR u hu)) states h).1
      omega
    obtain ⟨-, -, Li, e2, e3⟩ := filter_mean_cov qr rng cb u₀ us parallel key hR h (List.getElem?_eq_getElem hil)
    have h3 := hQ i hi _ Li u (List.getElem?_eq_getElem hil) e2 hu
    rwa [e3] at h3) hcov hmean (t - r) (by omega)
  rw [Nat.add_sub_cancel' ht] at k1 k2
  refine ⟨_, _, Lt, Lt', c1, d1, c2, d2, by rw [c3, d3, k1], ?_⟩
  rw [c3]
  exact k2

/-- C94, filter covariances. Two filters whose steps agree from time `r` on but which start from different
covariances. If at time `r` the difference of the covariances is small relative to both, and the process noise
dominates the propagated covariances of both by the factor `δ`, the relative difference shrinks by `(1 + δ)^(-1)` per
step. -/
theorem filter_forgets_covariance (qr qr' : QR) (rng : Prng K) (rng' : Prng K') (cb : Callbacks nx ny Inp)
    (cb' : Callbacks nx ny Inp') {u₀ : Inp} {us : List Inp} {u₀' : Inp'} {us' : List Inp'}
    (parallel parallel' : Bool) (key : Option K) (key' : Option K')
    (hR : ∀ u ∈ us, (stepOf cb u).R.det ≠ 0) (hR' : ∀ u ∈ us', (stepOf cb' u).R.det ≠ 0)
    {states : List (FilterState nx Inp)} {states' : List (FilterState nx Inp')}
    (h : (filter rng (buildFilter qr cb) (u₀ :: us) parallel key).result = .ok states)
    (h' : (filter rng' (buildFilter qr' cb') (u₀' :: us') parallel' key').result = .ok states')
    {r : ℕ} (hsame : (us.drop r).map (stepOf cb) = (us'.drop r).map (stepOf cb')) {δ : ℝ} (hδ : 0 ≤ δ)
    (hQ : ∀ t ≥ r, ∀ s L u, states[t]? = some s → s.cholCov = some L → us[t]? = some u →
      NoiseDominates δ ((stepOf cb u).F * (L * Lᵀ) * ((stepOf cb u).F)ᵀ)
        ((stepOf cb u).cholQ * ((stepOf cb u).cholQ)ᵀ))
    (hQ' : ∀ t ≥ r, ∀ s L u, states'[t]? = some s → s.cholCov = some L → us'[t]? = some u →
      NoiseDominates δ ((stepOf cb' u).F * (L * Lᵀ) * ((stepOf cb' u).F)ᵀ)
        ((stepOf cb' u).cholQ * ((stepOf cb' u).cholQ)ᵀ))
    {sr : FilterState nx Inp} {sr' : FilterState nx Inp'} {L L' : Matrix (Fin nx) (Fin nx) ℝ}
    (hr : states[r]? = some sr) (hr' : states'[r]? = some sr')
    (hL : sr.cholCov = some L) (hL' : sr'.cholCov = some L') {C : ℝ} (hC : 0 ≤ C)
    (hcov : CovWithin C (L * Lᵀ - L' * L'ᵀ) (L * Lᵀ) (L' * L'ᵀ)) (t : ℕ) (ht : r ≤ t) (s : FilterState nx Inp)
    (s' : FilterState nx Inp') (hs : states[t]? = some s) (hs' : states'[t]? = some s') :
    ∃ Lt Lt', s.cholCov = some Lt ∧ s'.cholCov = some Lt' ∧
      ∀ v w : Fin nx → ℝ, (v ⬝ᵥ (Lt * Ltᵀ - Lt' * Lt'ᵀ) *ᵥ w) ^ 2 ≤
        C * ((1 / (1 + δ)) ^ 2) ^ (t - r) * (v ⬝ᵥ (Lt * Ltᵀ) *ᵥ v) * (w ⬝ᵥ (Lt' * Lt'ᵀ) *ᵥ w) := by
  obtain ⟨-, A, a2, a3⟩ := filter_cov qr rng cb u₀ us parallel key hR h hr
  obtain ⟨-, B, b2, b3⟩ := filter_cov qr' rng' cb' u₀' us' parallel' key' hR' h' hr'
  rw [hL, Option.some.injEq] at a2
  rw [hL', Option.some.injEq] at b2
  subst a2 b2
  rw [a3, b3] at hcov
  obtain ⟨htl, Lt, c2, c3⟩ := filter_cov qr rng cb u₀ us parallel key hR h hs
  obtain ⟨-, Lt', d2, d3⟩ := filter_cov qr' rng' cb' u₀' us' parallel' key' hR' h' hs'
  refine ⟨Lt, Lt', c2, d2, ?_⟩
  rw [c3, d3]
  have key₁ : ∀ n, r + n ≤ us.length → CovWithin (C * ((1 / (1 + δ)) ^ 2) ^ n)
      ((kfAt cb u₀ us (r + n)).P - (kfAt cb' u₀' us' (r + n)).P) (kfAt cb u₀ us (r + n)).P
      (kfAt cb' u₀' us' (r + n)).P := by
    intro n
    induction n with
    | zero =>
      intro _
      rw [pow_zero, mul_one]
      exact hcov
    | succ n ih =>
      intro hn
      have i1 := ih (by omega)
      have hlt : r + n < us.length := by omega
      have hu : us[r + n]? = some us[r + n] := List.getElem?_eq_getElem hlt
      obtain ⟨u', hu', he⟩ := step_eq (Nat.le_add_right r n) hsame hu
      have hg := kfAt_gram cb u₀ us hR (r + n)
      have hg' := kfAt_gram cb' u₀' us' hR' (r + n)
      have hRu := hR _ (List.mem_of_getElem? hu)
      have hl := (filter_run_facts qr rng cb u₀ us parallel key (fun u hu => ScanOk.of_R _ (hR u hu)) states h).1
      have hl' := (filter_run_facts qr' rng' cb' u₀' us' parallel' key' (fun u hu => ScanOk.of_R _ (hR' u hu))
        states' h').1
      have hlt' : r + n < us'.length := (List.getElem?_eq_some_iff.mp hu').1
      have e1 : states[r + n]? = some (states[r + n]'(by omega)) := List.getElem?_eq_getElem _
      have e1' : states'[r + n]? = some (states'[r + n]'(by omega)) := List.getElem?_eq_getElem _
      obtain ⟨-, Li, e2, e3⟩ := filter_cov qr rng cb u₀ us parallel key hR h e1
      obtain ⟨-, Li', e2', e3'⟩ := filter_cov qr' rng' cb' u₀' us' parallel' key' hR' h' e1'
      have q1 := hQ _ (Nat.le_add_right r n) _ Li _ e1 e2 hu
      have q2 := hQ' _ (Nat.le_add_right r n) _ Li' _ e1' e2' hu'
      rw [e3] at q1
      rw [e3', he] at q2
      rw [← Nat.add_assoc, kfAt_succ cb u₀ us _ _ hu, kfAt_succ cb' u₀' us' _ _ hu', he, pow_succ, ← mul_assoc]
      exact kfStep_covWithin (mul_nonneg hC (by positivity)) hδ _ hg hg' hRu q1 q2 i1
  have k := key₁ (t - r) (by omega)
  rwa [Nat.add_sub_cancel' ht] at k

/-- C94, smoother. The smoothed means of the two runs of `filter_forgets_mean` also differ by at most
`√C (1 + δ)^(-(t - r)/2)` of the standard deviations that the *smoother* reports, and the smoothed covariances agree. -/
theorem smoother_forgets_mean (qr qr' : QR) (rng rng₁ : Prng K) (rng' rng₁' : Prng K') (cb : Callbacks nx ny Inp)
    (cb' : Callbacks nx ny Inp') {u₀ : Inp} {us : List Inp} {u₀' : Inp'} {us' : List Inp'} (hus : us ≠ [])
    (hus' : us' ≠ []) (parallel parallel₁ parallel' parallel₁' : Bool) (key key₁ : Option K) (key' key₁' : Option K')
    (opts : SmootherOpts nx Inp) (opts' : SmootherOpts nx Inp')
    (hR : ∀ u ∈ us, (stepOf cb u).R.det ≠ 0) (hR' : ∀ u ∈ us', (stepOf cb' u).R.det ≠ 0)
    {filterStates : List (FilterState nx Inp)} {filterStates' : List (FilterState nx Inp')}
    (hf : (filter rng (buildFilter qr cb) (u₀ :: us) parallel key).result = .ok filterStates)
    (hf' : (filter rng' (buildFilter qr' cb') (u₀' :: us') parallel' key').result = .ok filterStates')
    (hP : ∀ (t : ℕ) s L u, filterStates[t]? = some s → s.cholCov = some L → us[t]? = some u →
      ((stepOf cb u).F * (L * Lᵀ) * ((stepOf cb u).F)ᵀ +
        (stepOf cb u).cholQ * ((stepOf cb u).cholQ)ᵀ).det ≠ 0)
    (hP' : ∀ (t : ℕ) s L u, filterStates'[t]? = some s → s.cholCov = some L → us'[t]? = some u →
      ((stepOf cb' u).F * (L * Lᵀ) * ((stepOf cb' u).F)ᵀ +
        (stepOf cb' u).cholQ * ((stepOf cb' u).cholQ)ᵀ).det ≠ 0)
    {states : List (SmootherState nx Inp)} {states' : List (SmootherState nx Inp')}
    (h : (smoother rng₁ FilterState.modelInputs (fun u => .ok (opts.dummy u))
        (buildSmoother qr cb.getDynamics opts) filterStates none parallel₁ key₁).result = .ok states)
    (h' : (smoother rng₁' FilterState.modelInputs (fun u => .ok (opts'.dummy u))
        (buildSmoother qr' cb'.getDynamics opts') filterStates' none parallel₁' key₁').result = .ok states')
    {r : ℕ} (hsame : (us.drop r).map (stepOf cb) = (us'.drop r).map (stepOf cb')) {δ : ℝ} (hδ : 0 ≤ δ)
    (hQ : ∀ t ≥ r, ∀ s L u, filterStates[t]? = some s → s.cholCov = some L → us[t]? = some u →
      NoiseDominates δ ((stepOf cb u).F * (L * Lᵀ) * ((stepOf cb u).F)ᵀ)
        ((stepOf cb u).cholQ * ((stepOf cb u).cholQ)ᵀ))
    {sr : FilterState nx Inp} {sr' : FilterState nx Inp'} {m m' : Fin nx → ℝ} {L L' : Matrix (Fin nx) (Fin nx) ℝ}
    (hr : filterStates[r]? = some sr) (hr' : filterStates'[r]? = some sr') (hm : sr.mean = some m)
    (hm' : sr'.mean = some m') (hL : sr.cholCov = some L) (hL' : sr'.cholCov = some L') (hcov : L * Lᵀ = L' * L'ᵀ)
    {C : ℝ} (hC : 0 ≤ C) (hmean : Within C (m - m') (L * Lᵀ)) (t : ℕ) (ht : r ≤ t) (s : SmootherState nx Inp)
    (s' : SmootherState nx Inp') (hs : states[t]? = some s) (hs' : states'[t]? = some s') :
    ∃ mt mt' Lt Lt', s.mean = some mt ∧ s'.mean = some mt' ∧ s.cholCov = some Lt ∧ s'.cholCov = some Lt' ∧
      Lt * Ltᵀ = Lt' * Lt'ᵀ ∧
      ∀ v : Fin nx → ℝ, (v ⬝ᵥ (mt - mt')) ^ 2 ≤ C * (1 / (1 + δ)) ^ (t - r) * (v ⬝ᵥ (Lt * Ltᵀ) *ᵥ v) := by
  obtain ⟨htl, Lt, c1, c2⟩ := smoother_cov qr rng rng₁ cb u₀ us hus parallel parallel₁ key key₁ opts hR hf hP h hs
  obtain ⟨htl', Lt', d1, d2⟩ := smoother_cov qr' rng' rng₁' cb' u₀' us' hus' parallel' parallel₁' key' key₁' opts' hR'
    hf' hP' h' hs'
  have hl := (filter_run_facts qr rng cb u₀ us parallel key (fun u hu => ScanOk.of_R _ (hR u hu)) filterStates hf).1
  have hl' := (filter_run_facts qr' rng' cb' u₀' us' parallel' key' (fun u hu => ScanOk.of_R _ (hR' u hu))
    filterStates' hf').1
  have e1 : filterStates[t]? = some (filterStates[t]'(by omega)) := List.getElem?_eq_getElem _
  have e1' : filterStates'[t]? = some (filterStates'[t]'(by omega)) := List.getElem?_eq_getElem _
  obtain ⟨mf, mf', A, A', f1, f2, f3, f4, f5, f6⟩ := filter_forgets_mean qr qr' rng rng' cb cb' parallel parallel' key
    key' hR hR' hf hf' hsame hδ hQ hr hr' hm hm' hL hL' hcov hC hmean t ht _ _ e1 e1'
  obtain ⟨-, g1, G, g2, g3⟩ := filter_mean_cov qr rng cb u₀ us parallel key hR hf e1
  obtain ⟨-, k1, G', k2, k3⟩ := filter_mean_cov qr' rng' cb' u₀' us' parallel' key' hR' hf' e1'
  rw [f1, Option.some.injEq] at g1
  rw [f2, Option.some.injEq] at k1
  rw [f3, Option.some.injEq] at g2
  rw [f4, Option.some.injEq] at k2
  subst g1 k1 g2 k2
  rw [g3, k3] at f5
  rw [g3] at f6
  have hd := drop_step ht hsame
  obtain ⟨mt, mt', n1, n2, n3⟩ := smoother_mean_sub qr qr' rng rng₁ rng' rng₁' cb cb' hus hus' parallel parallel₁
    parallel' parallel₁' key key₁ key' key₁' opts opts' hR hR' hf hf' hP hP' h h' hs hs' f5 hd
  refine ⟨mt, mt', Lt, Lt', n1, n2, c1, d1, by rw [c2, d2, f5, hd], ?_⟩
  rw [c2, n3]
  exact Within.par (mul_nonneg hC (by positivity)) (kfAt_gram cb u₀ us hR t) (futureInfo_gram _) f6

/-! ## Non-vacuity -/

/-- A scalar random walk, observed in unit noise. The first input is the initial mean and
`p` the initial standard deviation; the other inputs are the data. -/
def walkModel (p : ℝ) : Callbacks 1 1 ℝ where
  getInit a := (fun _ => a, Matrix.of fun _ _ => p)
  getDynamics _ := (1, fun _ => 0, 1)
  getObservation y := (1, fun _ => 0, 1, fun _ => some y)

theorem walkModel_R (p u : ℝ) : (stepOf (walkModel p) u).R.det ≠ 0 := obsR_det _ _ (by simp [stepOf, walkModel])

theorem walkModel_info (p u : ℝ) : stepInfo (stepOf (walkModel p) u) 0 0 = 1 := by
  have hR : (stepOf (walkModel p) u).R = 1 := by
    ext ⟨i, hi⟩ ⟨j, hj⟩
    obtain rfl : i = 0 := Subsingleton.elim _ _
    obtain rfl : j = 0 := Subsingleton.elim _ _
    rw [Step.R, Matrix.one_apply_eq, Matrix.mul_apply, Fin.sum_univ_one]
    change (1 : Matrix (Fin 1) (Fin 1) ℝ) 0 0 * (1 : Matrix (Fin 1) (Fin 1) ℝ) 0 0 = 1
    rw [Matrix.one_apply_eq, mul_one]
  rw [stepInfo, obsInfo, hR, inv_one, Matrix.mul_one, Matrix.mul_apply]
  have hu : ∀ i : Obs (stepOf (walkModel p) u).y,
      (obsH (stepOf (walkModel p) u).y (stepOf (walkModel p) u).H)ᵀ 0 i * obsH (stepOf (walkModel p) u).y (stepOf (walkModel p) u).H i 0 =
        1 := by
    rintro ⟨i, hi⟩
    obtain rfl : i = 0 := Subsingleton.elim _ _
    change (1 : Matrix (Fin 1) (Fin 1) ℝ) 0 0 * (1 : Matrix (Fin 1) (Fin 1) ℝ) 0 0 = 1
    rw [Matrix.one_apply_eq, mul_one]
  rw [Finset.sum_congr rfl fun i _ => hu i]
  have hc : Fintype.card (Obs (stepOf (walkModel p) u).y) = 1 :=
    Fintype.card_eq_one_iff.mpr ⟨⟨0, rfl⟩, fun ⟨i, _⟩ => Subtype.ext (Subsingleton.elim _ _)⟩
  simp [hc]

/-- The variances of the walk never exceed one. -/
theorem walkModel_var {p : ℝ} (hp : p ^ 2 ≤ 1) (a : ℝ) (us : List ℝ) : ∀ t, t ≤ us.length → (kfAt (walkModel p) a us t).P 0 0 ≤ 1 := by
  have hR : ∀ u ∈ us, (stepOf (walkModel p) u).R.det ≠ 0 := fun u _ => walkModel_R p u
  intro t
  cases t with
  | zero =>
    intro _
    simpa [kfAt, walkModel, Matrix.mul_apply, ← pow_two] using hp
  | succ t =>
    intro ht
    have hu : us[t]? = some (us[t]'(by omega)) := List.getElem?_eq_getElem _
    have hg := kfAt_gram (walkModel p) a us hR t
    rw [kfAt_succ (walkModel p) a us _ _ hu, kfStep_P _ hg _ (walkModel_R p _)]
    have h1 := par_left (pred_gram hg (stepOf (walkModel p) (us[t]'(by omega)))) (stepInfo_gram (stepOf (walkModel p) (us[t]'(by omega))))
    have h2 := gram_quad_nonneg (pred_gram hg (stepOf (walkModel p) (us[t]'(by omega)))) 1
    have h3 := congrFun (congrFun h1 0) 0
    rw [Matrix.mul_apply, Fin.sum_univ_one, Matrix.add_apply, Matrix.one_apply_eq, Matrix.mul_apply, Fin.sum_univ_one,
      walkModel_info, mul_one] at h3
    simp only [dotProduct, Matrix.mulVec, Fin.sum_univ_one, Pi.one_apply, mul_one, one_mul] at h2
    obtain ⟨x, hx⟩ : ∃ x, x = ((stepOf (walkModel p) (us[t]'(by omega))).F * (kfAt (walkModel p) a us t).P *
      ((stepOf (walkModel p) (us[t]'(by omega))).F)ᵀ + (stepOf (walkModel p) (us[t]'(by omega))).cholQ *
      ((stepOf (walkModel p) (us[t]'(by omega))).cholQ)ᵀ) 0 0 := ⟨_, rfl⟩
    rw [← hx] at h2 h3
    by_contra hlt
    push Not at hlt
    nlinarith

/-- C94 for the walk: however long the data, a wrong initial mean is forgotten at the rate `2^(-t/2)`, by the filter and
by the smoother. -/
example (qr : QR) (rng : Prng K) (a a' : ℝ) (us : List ℝ) (hus : us ≠ []) (parallel parallel' : Bool) (key : Option K)
    (opts : SmootherOpts 1 ℝ) :
    ∃ fs fs' ss ss', (filter rng (buildFilter qr (walkModel 1)) (a :: us) parallel key).result = .ok fs ∧
      (filter rng (buildFilter qr (walkModel 1)) (a' :: us) parallel' key).result = .ok fs' ∧
      (smoother rng FilterState.modelInputs (fun u => .ok (opts.dummy u))
        (buildSmoother qr (walkModel 1).getDynamics opts) fs none parallel key).result = .ok ss ∧
      (smoother rng FilterState.modelInputs (fun u => .ok (opts.dummy u))
        (buildSmoother qr (walkModel 1).getDynamics opts) fs' none parallel' key).result = .ok ss' ∧
      ∀ t ≤ us.length, ∃ s s' m m' z z' n n', fs[t]? = some s ∧ fs'[t]? = some s' ∧ s.mean = some m ∧
        s'.mean = some m' ∧ (m 0 - m' 0) ^ 2 ≤ (a - a') ^ 2 * (1 / 2) ^ t ∧ ss[t]? = some z ∧ ss'[t]? = some z' ∧
        z.mean = some n ∧ z'.mean = some n' ∧ (n 0 - n' 0) ^ 2 ≤ (a - a') ^ 2 * (1 / 2) ^ t := by
  have hR : ∀ u ∈ us, (stepOf (walkModel 1) u).R.det ≠ 0 := fun u _ => walkModel_R 1 u
  obtain ⟨fs, hfs, -⟩ := kalman_filter_exact qr rng (walkModel 1) a us parallel key hR
  obtain ⟨fs', hfs', -⟩ := kalman_filter_exact qr rng (walkModel 1) a' us parallel' key hR
  have hP : ∀ (t : ℕ) (s : FilterState 1 ℝ) L u, (fs[t]? = some s ∨ fs'[t]? = some s) → s.cholCov = some L →
      us[t]? = some u → ((stepOf (walkModel 1) u).F * (L * Lᵀ) * ((stepOf (walkModel 1) u).F)ᵀ +
        (stepOf (walkModel 1) u).cholQ * ((stepOf (walkModel 1) u).cholQ)ᵀ).det ≠ 0 := by
    intro t s L u _ _ _
    rw [add_comm]
    exact (isGram_of _).det_add_ne_zero (by simp [stepOf, walkModel]) ((isGram_of L).conj _)
  obtain ⟨ss, LT, hss, hsl, -, hall⟩ := smoother_run_facts qr rng rng (walkModel 1) a us hus parallel parallel key key opts
    (fun u hu => ScanOk.of_R _ (hR u hu)) fs hfs (fun t s L u h => hP t s L u (.inl h)) none (.inl rfl)
  obtain ⟨ss', LT', hss', hsl', -, hall'⟩ := smoother_run_facts qr rng rng (walkModel 1) a' us hus parallel' parallel' key
    key opts (fun u hu => ScanOk.of_R _ (hR u hu)) fs' hfs' (fun t s L u h => hP t s L u (.inr h)) none (.inl rfl)
  refine ⟨fs, fs', ss, ss', hfs, hfs', hss, hss', fun t ht => ?_⟩
  obtain ⟨hl, -, hfa⟩ := filter_run_facts qr rng (walkModel 1) a us parallel key (fun u hu => ScanOk.of_R _ (hR u hu)) fs hfs
  obtain ⟨hl', -, hfa'⟩ := filter_run_facts qr rng (walkModel 1) a' us parallel' key (fun u hu => ScanOk.of_R _ (hR u hu))
    fs' hfs'
  obtain ⟨s₀, -, hs₀, -⟩ := hfa 0 (Nat.zero_le _)
  obtain ⟨s₀', -, hs₀', -⟩ := hfa' 0 (Nat.zero_le _)
  obtain ⟨s, -, hs, -⟩ := hfa t ht
  obtain ⟨s', -, hs', -⟩ := hfa' t ht
  obtain ⟨z, -, -, hz, -⟩ := hall t ht
  obtain ⟨z', -, -, hz', -⟩ := hall' t ht
  obtain ⟨-, b1, L, b2, b3⟩ := filter_mean_cov qr rng (walkModel 1) a us parallel key hR hfs hs₀
  obtain ⟨-, b1', L', b2', b3'⟩ := filter_mean_cov qr rng (walkModel 1) a' us parallel' key hR hfs' hs₀'
  have hQ : ∀ t ≥ 0, ∀ (s : FilterState 1 ℝ) L u, fs[t]? = some s → s.cholCov = some L → us[t]? = some u →
      NoiseDominates 1 ((stepOf (walkModel 1) u).F * (L * Lᵀ) * ((stepOf (walkModel 1) u).F)ᵀ)
        ((stepOf (walkModel 1) u).cholQ * ((stepOf (walkModel 1) u).cholQ)ᵀ) := by
    intro t _ s L u h1 h2 h3 v
    obtain ⟨h4, -, M, h5, h6⟩ := filter_mean_cov qr rng (walkModel 1) a us parallel key hR hfs h1
    rw [h2, Option.some.injEq] at h5
    subst h5
    have h7 := walkModel_var (one_pow 2).le a us t h4
    rw [← h6] at h7
    have h8 : (stepOf (walkModel 1) u).F = 1 := rfl
    have h9 : (stepOf (walkModel 1) u).cholQ = 1 := rfl
    rw [h8, h9, Matrix.transpose_one, Matrix.mul_one, Matrix.one_mul, Matrix.mul_one, Matrix.one_mulVec, one_mul]
    simp only [dotProduct, Matrix.mulVec, Fin.sum_univ_one]
    nlinarith [mul_nonneg (mul_self_nonneg (v 0)) (sub_nonneg.mpr h7)]
  have hW : Within ((a - a') ^ 2) ((kfAt (walkModel 1) a us 0).m - (kfAt (walkModel 1) a' us 0).m) (L * Lᵀ) := by
    intro v
    rw [b3]
    simp [kfAt, walkModel, Matrix.mul_apply, dotProduct, Matrix.mulVec]
    nlinarith
  have hcov : L * Lᵀ = L' * L'ᵀ := by
    rw [b3, b3']
    rfl
  obtain ⟨m, m', A, A', c1, c2, c3, -, -, c4⟩ := filter_forgets_mean qr qr rng rng (walkModel 1) (walkModel 1) parallel parallel'
    key key hR hR hfs hfs' (r := 0) rfl zero_le_one hQ hs₀ hs₀' b1 b1' b2 b2' hcov (sq_nonneg _) hW t (Nat.zero_le _)
    s s' hs hs'
  obtain ⟨n, n', B, B', d1, d2, d3, -, -, d4⟩ := smoother_forgets_mean qr qr rng rng rng rng (walkModel 1) (walkModel 1) hus hus
    parallel parallel parallel' parallel' key key key key opts opts hR hR hfs hfs' (fun t s L u h => hP t s L u (.inl h))
    (fun t s L u h => hP t s L u (.inr h)) hss hss' (r := 0) rfl zero_le_one hQ hs₀ hs₀' b1 b1' b2 b2' hcov (sq_nonneg _)
    hW t (Nat.zero_le _) z z' hz hz'
  have hA : (A * Aᵀ) 0 0 ≤ 1 := by
    obtain ⟨-, -, M, h5, h6⟩ := filter_mean_cov qr rng (walkModel 1) a us parallel key hR hfs hs
    rw [c3, Option.some.injEq] at h5
    subst h5
    rw [h6]
    exact walkModel_var (one_pow 2).le a us t ht
  have hB : (B * Bᵀ) 0 0 ≤ 1 := by
    obtain ⟨M, N, h5, h6, h7⟩ := smoothing_below_filtering qr rng rng (walkModel 1) hus parallel parallel key key opts hR hfs
      (fun t s L u h => hP t s L u (.inl h)) hss t s z hs hz
    rw [c3, Option.some.injEq] at h5
    rw [d3, Option.some.injEq] at h6
    subst h5 h6
    have h8 := gram_quad_nonneg (isGram_iff.mpr h7) 1
    simp only [dotProduct, Matrix.mulVec, Fin.sum_univ_one, Pi.one_apply, mul_one, one_mul, Matrix.sub_apply] at h8
    linarith
  have e1 := c4 1
  have e2 := d4 1
  simp only [dotProduct, Matrix.mulVec, Fin.sum_univ_one, Pi.one_apply, mul_one, one_mul, Pi.sub_apply,
    Nat.sub_zero] at e1 e2
  have hpos : 0 ≤ (a - a') ^ 2 * (1 / 2 : ℝ) ^ t := by positivity
  have h2 : (1 : ℝ) / (1 + 1) = 1 / 2 := by norm_num
  rw [h2] at e1 e2
  exact ⟨s, s', m, m', z, z', n, n', hs, hs', c1, c2, e1.trans (mul_le_of_le_one_right hpos hA), hz, hz', d1, d2,
    e2.trans (mul_le_of_le_one_right hpos hB)⟩

/-- Two walks that start from the standard deviations `1/2` and `1`: the covariances meet the hypotheses of
`filter_forgets_covariance` with `δ = 1`, so their relative difference halves at every step. -/
example (qr : QR) (rng : Prng K) (a : ℝ) (us : List ℝ) (parallel parallel' : Bool) (key : Option K) :
    ∃ fs fs', (filter rng (buildFilter qr (walkModel (1 / 2))) (a :: us) parallel key).result = .ok fs ∧
      (filter rng (buildFilter qr (walkModel 1)) (a :: us) parallel' key).result = .ok fs' ∧
      ∀ t ≤ us.length, ∃ s s' L L', fs[t]? = some s ∧ fs'[t]? = some s' ∧ s.cholCov = some L ∧ s'.cholCov = some L' ∧
        ((L * Lᵀ - L' * L'ᵀ) 0 0) ^ 2 ≤ 9 / 4 * (1 / 4) ^ t * (L * Lᵀ) 0 0 * (L' * L'ᵀ) 0 0 := by
  have hR : ∀ p : ℝ, ∀ u ∈ us, (stepOf (walkModel p) u).R.det ≠ 0 := fun p u _ => walkModel_R p u
  obtain ⟨fs, hfs, -⟩ := kalman_filter_exact qr rng (walkModel (1 / 2)) a us parallel key (hR _)
  obtain ⟨fs', hfs', -⟩ := kalman_filter_exact qr rng (walkModel 1) a us parallel' key (hR _)
  refine ⟨fs, fs', hfs, hfs', fun t ht => ?_⟩
  obtain ⟨hl, -, hfa⟩ := filter_run_facts qr rng (walkModel (1 / 2)) a us parallel key
    (fun u hu => ScanOk.of_R _ (hR _ u hu)) fs hfs
  obtain ⟨hl', -, hfa'⟩ := filter_run_facts qr rng (walkModel 1) a us parallel' key
    (fun u hu => ScanOk.of_R _ (hR _ u hu)) fs' hfs'
  obtain ⟨s₀, -, hs₀, -⟩ := hfa 0 (Nat.zero_le _)
  obtain ⟨s₀', -, hs₀', -⟩ := hfa' 0 (Nat.zero_le _)
  obtain ⟨s, -, hs, -⟩ := hfa t ht
  obtain ⟨s', -, hs', -⟩ := hfa' t ht
  obtain ⟨-, L, b2, b3⟩ := filter_cov qr rng (walkModel (1 / 2)) a us parallel key (hR _) hfs hs₀
  obtain ⟨-, L', b2', b3'⟩ := filter_cov qr rng (walkModel 1) a us parallel' key (hR _) hfs' hs₀'
  have hQ : ∀ (p : ℝ) (_ : p ^ 2 ≤ 1) (parallel : Bool) (fs : List (FilterState 1 ℝ)),
      (filter rng (buildFilter qr (walkModel p)) (a :: us) parallel key).result = .ok fs →
      ∀ t ≥ 0, ∀ (s : FilterState 1 ℝ) L u, fs[t]? = some s → s.cholCov = some L → us[t]? = some u →
      NoiseDominates 1 ((stepOf (walkModel p) u).F * (L * Lᵀ) * ((stepOf (walkModel p) u).F)ᵀ)
        ((stepOf (walkModel p) u).cholQ * ((stepOf (walkModel p) u).cholQ)ᵀ) := by
    intro p hp parallel fs hfs t _ s L u h1 h2 h3 v
    obtain ⟨h4, M, h5, h6⟩ := filter_cov qr rng (walkModel p) a us parallel key (hR _) hfs h1
    rw [h2, Option.some.injEq] at h5
    subst h5
    have h7 := walkModel_var hp a us t h4
    rw [← h6] at h7
    have h8 : (stepOf (walkModel p) u).F = 1 := rfl
    have h9 : (stepOf (walkModel p) u).cholQ = 1 := rfl
    rw [h8, h9, Matrix.transpose_one, Matrix.mul_one, Matrix.one_mul, Matrix.mul_one, Matrix.one_mulVec, one_mul]
    simp only [dotProduct, Matrix.mulVec, Fin.sum_univ_one]
    nlinarith [mul_nonneg (mul_self_nonneg (v 0)) (sub_nonneg.mpr h7)]
  have hW : CovWithin (9 / 4) (L * Lᵀ - L' * L'ᵀ) (L * Lᵀ) (L' * L'ᵀ) := by
    intro v w
    rw [b3, b3']
    simp [kfAt, walkModel, dotProduct, Matrix.mul_apply, Matrix.mulVec]
    nlinarith
  obtain ⟨A, A', c1, c2, c3⟩ := filter_forgets_covariance qr qr rng rng (walkModel (1 / 2)) (walkModel 1) parallel
    parallel' key key (hR _) (hR _) hfs hfs' (r := 0) rfl zero_le_one (hQ _ (by norm_num) _ _ hfs)
    (hQ _ (by norm_num) _ _ hfs') hs₀ hs₀' b2 b2' (by norm_num) hW t (Nat.zero_le _) s s' hs hs'
  refine ⟨s, s', A, A', hs, hs', c1, c2, ?_⟩
  have e := c3 1 1
  have h4 : ((1 : ℝ) / (1 + 1)) ^ 2 = 1 / 4 := by norm_num
  rw [h4] at e
  simpa only [dotProduct, Matrix.mulVec, Fin.sum_univ_one, Pi.one_apply, mul_one, one_mul, Nat.sub_zero] using e

end

end Cuthbert.Kalman
