import Verif.Props.MissingLimit

/-!
# With a diffuse prior the Kalman filter conditions a flat prior (C137)
-/

namespace Cuthbert.Kalman
open MeasureTheory Matrix Cuthbert.Spec Filter Topology
open scoped ENNReal

noncomputable section

set_option linter.unusedSectionVars false

variable {nx ny : ℕ} {Inp K : Type}

/-! ## Statement -/

/-- The noise-free outputs from `x` vanish in all observed components. -/
def Unobserved : (Fin nx → ℝ) → List (Step nx ny) → Prop
  | _, [] => True
  | x, s :: ss => obsH s.y s.H *ᵥ (s.F *ᵥ x) = 0 ∧ Unobserved (s.F *ᵥ x) ss

/-- The observed components determine the initial state when there is no noise. -/
def Observable (ss : List (Step nx ny)) : Prop := ∀ x, Unobserved x ss → x = 0

/-- The integral of `f` with respect to the unnormalised posterior of a flat prior for the initial state. -/
def flatExp (ss : List (Step nx ny)) (f : (ℕ → Fin nx → ℝ) → ℝ≥0∞) : ℝ≥0∞ := ∫⁻ x, pathExp ss f x

/-- The model `cb'` is the model `cb` with the initial state distributed as `N(m0, κ P0)`. -/
structure WithPrior (κ : ℝ) (m0 : Fin nx → ℝ) (P0 : Matrix (Fin nx) (Fin nx) ℝ) (cb cb' : Callbacks nx ny Inp) (u₀ : Inp)
    (us : List Inp) : Prop where
  mean : (cb'.getInit u₀).1 = m0
  cov : (cb'.getInit u₀).2 * ((cb'.getInit u₀).2)ᵀ = κ • P0
  dynamics : ∀ u ∈ us, cb'.getDynamics u = cb.getDynamics u
  observation : ∀ u ∈ us, cb'.getObservation u = cb.getObservation u

/-! ## Composition of all steps -/

/-- The scan elements of all steps combined. -/
def comp : List (Step nx ny) → CElem (Fin nx)
  | [] => ⟨1, 0, 0, 0, 0, 0⟩
  | s :: ss => (prepOf s).op (comp ss)

theorem op_one (e : CElem (Fin nx)) : e.op ⟨1, 0, 0, 0, 0, 0⟩ = e := by
  cases e
  simp [CElem.op, elimD]

theorem comp_valid : ∀ ss : List (Step nx ny), (∀ s ∈ ss, s.R.det ≠ 0) → (comp ss).Valid
  | [], _ => ⟨isGram_zero, isGram_zero⟩
  | s :: ss, h => (prepOf_valid s (ScanOk.of_R s (h s List.mem_cons_self))).op
    (comp_valid ss fun s' h' => h s' (List.mem_cons_of_mem _ h'))

theorem comp_fold : ∀ (ss : List (Step nx ny)) (k : KF nx), IsGram k.P → (∀ s ∈ ss, s.R.det ≠ 0) →
    k.elem.op (comp ss) = (ss.foldl kfStep k).elem
  | [], k, _, _ => op_one _
  | s :: ss, k, hP, h => by
    have h0 := ScanOk.of_R s (h s List.mem_cons_self)
    have h' : ∀ s ∈ ss, s.R.det ≠ 0 := fun s' h' => h s' (List.mem_cons_of_mem _ h')
    rw [comp, ← CElem.op_assoc _ _ _ ⟨hP, isGram_zero⟩ (prepOf_valid s h0) (comp_valid ss h'), kf_op_prep k hP s h0,
      List.foldl_cons]
    exact comp_fold ss _ (Kalman.kfStep_gram k hP s (h s List.mem_cons_self)) h'

theorem fold_eq (ss : List (Step nx ny)) (k : KF nx) (hP : IsGram k.P) (h : ∀ s ∈ ss, s.R.det ≠ 0) :
    (ss.foldl kfStep k).m = (comp ss).A *ᵥ (elimD k.P (comp ss).J *ᵥ (k.m + k.P *ᵥ (comp ss).eta)) + (comp ss).b ∧
      (ss.foldl kfStep k).P = (comp ss).A * (elimD k.P (comp ss).J * k.P) * (comp ss).Aᵀ + (comp ss).C ∧
      (ss.foldl kfStep k).l = k.l + (comp ss).ell + 1 / 2 * Real.log (elimD k.P (comp ss).J).det +
        1 / 2 * ((comp ss).eta ⬝ᵥ (elimD k.P (comp ss).J *ᵥ (k.m + k.P *ᵥ (comp ss).eta)) +
          ((comp ss).eta - (comp ss).J *ᵥ (elimD k.P (comp ss).J *ᵥ (k.m + k.P *ᵥ (comp ss).eta))) ⬝ᵥ k.m) := by
  have e := comp_fold ss k hP h
  exact ⟨(congrArg CElem.b e).symm, (congrArg CElem.C e).symm, (congrArg CElem.ell e).symm⟩

/-! ## Observability -/

theorem gram_mulVec {ι : Type*} [Fintype ι] {G : Matrix ι ι ℝ} (hG : IsGram G) {x : ι → ℝ} (h : x ⬝ᵥ G *ᵥ x = 0) :
    G *ᵥ x = 0 := by
  obtain ⟨U, rfl⟩ := hG
  rw [← Matrix.mulVec_mulVec, Matrix.dotProduct_mulVec, ← Matrix.mulVec_transpose] at h
  rw [← Matrix.mulVec_mulVec, dotProduct_self_eq_zero.mp h, Matrix.mulVec_zero]

theorem gram_nonneg {ι : Type*} [Fintype ι] {G : Matrix ι ι ℝ} (hG : IsGram G) (x : ι → ℝ) : 0 ≤ x ⬝ᵥ G *ᵥ x := by
  obtain ⟨U, rfl⟩ := hG
  rw [← Matrix.mulVec_mulVec, Matrix.dotProduct_mulVec, ← Matrix.mulVec_transpose]
  exact Finset.sum_nonneg fun i _ => mul_self_nonneg _

theorem conj_quad {ι ο : Type*} [Fintype ι] [Fintype ο] (A : Matrix ο ι ℝ) (G : Matrix ο ο ℝ) (x : ι → ℝ) :
    x ⬝ᵥ (Aᵀ * G * A) *ᵥ x = (A *ᵥ x) ⬝ᵥ G *ᵥ (A *ᵥ x) := by
  rw [← Matrix.mulVec_mulVec, ← Matrix.mulVec_mulVec, Matrix.dotProduct_mulVec, Matrix.vecMul_transpose]

theorem comp_kernel : ∀ (ss : List (Step nx ny)), (∀ s ∈ ss, s.R.det ≠ 0) → ∀ x, (comp ss).J *ᵥ x = 0 → Unobserved x ss
  | [], _, _, _ => trivial
  | s :: ss, h, x, hx => by
    have h' : ∀ s ∈ ss, s.R.det ≠ 0 := fun s' h' => h s' (List.mem_cons_of_mem _ h')
    have hok := ScanOk.of_R s (h s List.mem_cons_self)
    have hv := prepOf_valid s hok
    have hv2 := comp_valid ss h'
    obtain ⟨e, he⟩ : ∃ e, e = comp ss := ⟨_, rfl⟩
    rw [← he] at hv2
    have hG : IsGram (e.J * elimD (prepOf s).C e.J) := by
      have hv' : (CElem.op ⟨1, 0, (prepOf s).C, 0, 0, 0⟩ e).Valid :=
        (show (CElem.mk 1 0 (prepOf s).C 0 0 0).Valid from ⟨hv.1, isGram_zero⟩).op hv2
      simpa [CElem.op] using hv'.2
    have hJ : (comp (s :: ss)).J = (prepOf s).Aᵀ * (e.J * elimD (prepOf s).C e.J) * (prepOf s).A + (prepOf s).J := by
      rw [comp, ← he]; rfl
    have hq : x ⬝ᵥ (comp (s :: ss)).J *ᵥ x = 0 := by rw [hx, dotProduct_zero]
    rw [hJ, Matrix.add_mulVec, dotProduct_add, conj_quad] at hq
    have n1 := gram_nonneg hG ((prepOf s).A *ᵥ x)
    have n2 := gram_nonneg hv.2 x
    have q1 : x ⬝ᵥ (prepOf s).J *ᵥ x = 0 := by linarith
    have q2 : ((prepOf s).A *ᵥ x) ⬝ᵥ (e.J * elimD (prepOf s).C e.J) *ᵥ ((prepOf s).A *ᵥ x) = 0 := by linarith
    -- the first observation
    obtain ⟨S, hS⟩ : ∃ S, S = innovCov (s.cholQ * s.cholQᵀ) (obsH s.y s.H) s.R := ⟨_, rfl⟩
    have hSg : IsGram S := hS ▸ innovCov_gram (isGram_of _) s.R_gram
    have hSd : S.det ≠ 0 := hS ▸ hok
    have hJ1 : (prepOf s).J = (obsH s.y s.H * s.F)ᵀ * S⁻¹ * (obsH s.y s.H * s.F) := by
      rw [prepOf, prepC, ← hS, Matrix.transpose_mul]
      simp only [Matrix.mul_assoc]
    rw [hJ1, conj_quad] at q1
    have z1 : obsH s.y s.H *ᵥ (s.F *ᵥ x) = 0 := by
      have := gram_mulVec hSg.inv q1
      have h2 := congrArg (S *ᵥ ·) this
      simp only [Matrix.mulVec_zero] at h2
      rwa [Matrix.mulVec_mulVec, Matrix.mul_nonsing_inv _ (isUnit_iff_ne_zero.mpr hSd), Matrix.one_mulVec,
        ← Matrix.mulVec_mulVec] at h2
    have hA : (prepOf s).A *ᵥ x = s.F *ᵥ x := by
      have e1 : (prepOf s).A = s.F - s.cholQ * s.cholQᵀ * ((obsH s.y s.H)ᵀ * S⁻¹ * obsH s.y s.H) * s.F := by
        rw [prepOf, prepC, ← hS]
      rw [e1, Matrix.sub_mulVec, ← Matrix.mulVec_mulVec, ← Matrix.mulVec_mulVec, ← Matrix.mulVec_mulVec _ _ (obsH s.y s.H),
        z1, Matrix.mulVec_zero, Matrix.mulVec_zero, sub_zero]
    refine ⟨z1, comp_kernel ss h' _ ?_⟩
    rw [hA] at q2
    have z2 := gram_mulVec hG q2
    rw [← he]
    have hw := congrArg (· *ᵥ (s.F *ᵥ x)) (elimD_right hv.1 hv2.2)
    simp only [Matrix.one_mulVec] at hw
    rw [← Matrix.mulVec_mulVec] at z2 hw
    rw [Matrix.add_mulVec, Matrix.one_mulVec, ← Matrix.mulVec_mulVec, z2, Matrix.mulVec_zero, add_zero] at hw
    rwa [hw] at z2

theorem Observable.det {ss : List (Step nx ny)} (h : Observable ss) (hR : ∀ s ∈ ss, s.R.det ≠ 0) :
    (comp ss).J.det ≠ 0 := by
  intro h0
  obtain ⟨v, hv, h1⟩ := Matrix.exists_mulVec_eq_zero_iff.mpr h0
  exact hv (h v (comp_kernel ss hR v h1))

/-! ## The flat prior -/

/-- Log evidence of the flat prior. -/
def flatLog (e : CElem (Fin nx)) : ℝ :=
  e.ell + 1 / 2 * (e.eta ⬝ᵥ e.J⁻¹ *ᵥ e.eta) + nx / 2 * Real.log (2 * Real.pi) - 1 / 2 * Real.log e.J.det

theorem pathExp_last (ss : List (Step nx ny)) (hR : ∀ s ∈ ss, s.R.det ≠ 0) (V : Matrix (Fin nx) (Fin nx) ℝ)
    (hV : V * Vᵀ = (comp ss).C) {φ : (Fin nx → ℝ) → ℝ≥0∞} (hφ : Measurable φ) (x : Fin nx → ℝ) :
    pathExp ss (fun p => φ (p ss.length)) x =
      ENNReal.ofReal (Real.exp ((comp ss).ell + (comp ss).eta ⬝ᵥ x - 1 / 2 * (x ⬝ᵥ (comp ss).J *ᵥ x))) *
        ∫⁻ x', φ x' ∂gauss ((comp ss).A *ᵥ x + (comp ss).b) V := by
  obtain ⟨f1, f2, f3⟩ := fold_eq ss ⟨x, 0, 0⟩ isGram_zero hR
  simp only [elimD, Matrix.zero_mul, add_zero, inv_one, Matrix.zero_mulVec, Matrix.one_mulVec, Matrix.mul_zero, zero_add,
    Matrix.det_one, Real.log_one, Matrix.zero_mul] at f1 f2 f3
  have hm : Measurable fun p : ℕ → Fin nx → ℝ => φ (p 0) := hφ.comp (measurable_pi_apply 0)
  have h := joint_split ss ss.length le_rfl (by rw [List.take_length]; exact hR) ⟨x, 0, 0⟩ (0 : Matrix (Fin nx) (Fin nx) ℝ)
    (by simp) V (by rw [List.take_length, hV, f2]) hm
  rw [List.take_length, List.drop_length, f1, f3] at h
  have hl : ∫⁻ x', pathExp ss (fun p => φ (p ss.length)) x' ∂gauss x (0 : Matrix (Fin nx) (Fin nx) ℝ) =
      pathExp ss (fun p => φ (p ss.length)) x := by
    have hm' : Measurable fun p : ℕ → Fin nx → ℝ => φ (p ss.length) := hφ.comp (measurable_pi_apply _)
    rw [lintegral_gauss _ _ (measurable_pathExp' ss hm')]
    simp
  simp only [zero_add] at h
  rw [hl] at h
  rw [h]
  congr 3
  rw [sub_dotProduct, dotProduct_comm ((comp ss).J *ᵥ x) x]
  ring

theorem complete_flat (e : CElem (Fin nx)) (hJ : IsGram e.J) (hd : e.J.det ≠ 0) (x : Fin nx → ℝ) :
    e.ell + e.eta ⬝ᵥ x - 1 / 2 * (x ⬝ᵥ e.J *ᵥ x) = flatLog e + gaussLogDensity (e.J⁻¹ *ᵥ e.eta) e.J⁻¹ x := by
  have hu : IsUnit e.J.det := isUnit_iff_ne_zero.mpr hd
  obtain ⟨w, hw⟩ : ∃ w, w = e.J⁻¹ *ᵥ e.eta := ⟨_, rfl⟩
  have hη : e.eta = e.J *ᵥ w := by rw [hw, Matrix.mulVec_mulVec, Matrix.mul_nonsing_inv _ hu, Matrix.one_mulVec]
  have hsym : w ⬝ᵥ e.J *ᵥ x = (e.J *ᵥ w) ⬝ᵥ x := by
    rw [Matrix.dotProduct_mulVec, ← Matrix.mulVec_transpose, hJ.symm]
  rw [flatLog, gaussLogDensity, ← hw, Matrix.nonsing_inv_nonsing_inv _ hu, Matrix.det_nonsing_inv, Ring.inverse_eq_inv',
    Real.log_inv, Fintype.card_fin, hη, Matrix.mulVec_sub, sub_dotProduct, dotProduct_sub, dotProduct_sub, hsym,
    dotProduct_comm x (e.J *ᵥ w), dotProduct_comm w (e.J *ᵥ w)]
  ring

theorem flat_last (ss : List (Step nx ny)) (hR : ∀ s ∈ ss, s.R.det ≠ 0) (hd : (comp ss).J.det ≠ 0)
    (W : Matrix (Fin nx) (Fin nx) ℝ)
    (hW : W * Wᵀ = (comp ss).A * (comp ss).J⁻¹ * (comp ss).Aᵀ + (comp ss).C) {φ : (Fin nx → ℝ) → ℝ≥0∞} (hφ : Measurable φ) :
    flatExp ss (fun p => φ (p ss.length)) = ENNReal.ofReal (Real.exp (flatLog (comp ss))) *
      ∫⁻ x, φ x ∂gauss ((comp ss).A *ᵥ ((comp ss).J⁻¹ *ᵥ (comp ss).eta) + (comp ss).b) W := by
  have hv := comp_valid ss hR
  obtain ⟨V, hV⟩ := hv.1.exists_sqrt
  obtain ⟨B, hB⟩ := hv.2.inv.exists_sqrt
  have hBd : B.det ≠ 0 := by
    intro h0
    have h1 := congrArg Matrix.det hB
    rw [Matrix.det_mul, h0, zero_mul, Matrix.det_nonsing_inv, Ring.inverse_eq_inv'] at h1
    exact inv_ne_zero hd h1.symm
  have hmean : Measurable fun x : Fin nx → ℝ => (comp ss).A *ᵥ x + (comp ss).b :=
    (measurable_mulVec _).add measurable_const
  have hg : Measurable fun x : Fin nx → ℝ => ∫⁻ x', φ x' ∂gauss ((comp ss).A *ᵥ x + (comp ss).b) V :=
    measurable_lintegral_kernel _ hmean V (f := fun p => φ p.2) (hφ.comp measurable_snd)
  have hdens : Measurable fun x : Fin nx → ℝ =>
      ENNReal.ofReal (Real.exp (gaussLogDensity ((comp ss).J⁻¹ *ᵥ (comp ss).eta) (B * Bᵀ) x)) := by
    unfold gaussLogDensity
    simp only [dotProduct, Matrix.mulVec]
    fun_prop
  have h1 := gauss_predict (W := W) ((comp ss).J⁻¹ *ᵥ (comp ss).eta) B (comp ss).A (comp ss).b V
    (by rw [hW, hB, hV]) hφ
  rw [← h1, gauss_eq_withDensity _ B hBd, lintegral_withDensity_eq_lintegral_mul _ hdens hg, flatExp,
    ← lintegral_const_mul _ (hdens.mul hg)]
  refine lintegral_congr fun x => ?_
  rw [pathExp_last ss hR V hV hφ, complete_flat _ hv.2 hd, Pi.mul_apply, Real.exp_add,
    ENNReal.ofReal_mul (Real.exp_pos _).le, hB, mul_assoc]

/-! ## Large prior covariances -/

/-- Filtering quantities for the prior `N(m0, P0 / θ)`, the log normalising constant normalised. -/
def diffuseKF (e : CElem (Fin nx)) (m0 : Fin nx → ℝ) (P0 : Matrix (Fin nx) (Fin nx) ℝ) (θ : ℝ) : KF nx where
  m := e.A *ᵥ ((θ • (1 : Matrix (Fin nx) (Fin nx) ℝ) + P0 * e.J)⁻¹ *ᵥ (θ • m0 + P0 *ᵥ e.eta)) + e.b
  P := e.A * ((θ • (1 : Matrix (Fin nx) (Fin nx) ℝ) + P0 * e.J)⁻¹ * P0) * e.Aᵀ + e.C
  l := e.ell + 1 / 2 * (nx * Real.log (2 * Real.pi) + Real.log P0.det -
      Real.log (θ • (1 : Matrix (Fin nx) (Fin nx) ℝ) + P0 * e.J).det) +
    1 / 2 * (e.eta ⬝ᵥ ((θ • (1 : Matrix (Fin nx) (Fin nx) ℝ) + P0 * e.J)⁻¹ *ᵥ (θ • m0 + P0 *ᵥ e.eta)) +
      (e.eta - e.J *ᵥ ((θ • (1 : Matrix (Fin nx) (Fin nx) ℝ) + P0 * e.J)⁻¹ *ᵥ (θ • m0 + P0 *ᵥ e.eta))) ⬝ᵥ m0)

theorem diffuse_det {J P0 : Matrix (Fin nx) (Fin nx) ℝ} (hJ : IsGram J) (hd : J.det ≠ 0) (hP : IsGram P0)
    (hPd : P0.det ≠ 0) {θ : ℝ} (hθ : 0 ≤ θ) : (θ • (1 : Matrix (Fin nx) (Fin nx) ℝ) + P0 * J).det ≠ 0 := by
  have e : θ • (1 : Matrix (Fin nx) (Fin nx) ℝ) + P0 * J = P0 * (J + θ • P0⁻¹) := by
    rw [Matrix.mul_add, Matrix.mul_smul, Matrix.mul_nonsing_inv _ (isUnit_iff_ne_zero.mpr hPd), add_comm]
  rw [e, Matrix.det_mul]
  exact mul_ne_zero hPd (hJ.det_add_ne_zero hd (smul_gram hP.inv hθ))

theorem smooth_diffuse {e : CElem (Fin nx)} (he : e.Valid) (hd : e.J.det ≠ 0) {m0 : Fin nx → ℝ}
    {P0 : Matrix (Fin nx) (Fin nx) ℝ} (hP : IsGram P0) (hPd : P0.det ≠ 0) :
    SmoothKF 0 (Set.Ici 0) fun θ : ℝ => diffuseKF e m0 P0 θ := by
  have hN : SmoothMat 0 (Set.Ici (0 : ℝ)) fun θ : ℝ => θ • (1 : Matrix (Fin nx) (Fin nx) ℝ) + P0 * e.J := by
    intro i j
    simp only [Matrix.add_apply, Matrix.smul_apply, smul_eq_mul]
    exact (contDiffOn_id.mul contDiffOn_const).add contDiffOn_const
  have hdet := fun θ (hθ : θ ∈ Set.Ici (0 : ℝ)) => diffuse_det he.2 hd hP hPd (Set.mem_Ici.mp hθ)
  have hv : SmoothVec 0 (Set.Ici (0 : ℝ)) fun θ : ℝ => θ • m0 + P0 *ᵥ e.eta := by
    intro i
    simp only [Pi.add_apply, Pi.smul_apply, smul_eq_mul]
    exact (contDiffOn_id.mul contDiffOn_const).add contDiffOn_const
  have ht := (hN.inv hdet).mulVec hv
  refine ⟨?_, ?_, ?_⟩
  · exact ((SmoothMat.const e.A).mulVec ht).add (SmoothVec.const e.b)
  · exact (((SmoothMat.const e.A).mul ((hN.inv hdet).mul (SmoothMat.const P0))).mul (SmoothMat.const e.Aᵀ)).add
      (SmoothMat.const e.C)
  · have h1 := (SmoothVec.const (n := 0) (U := Set.Ici (0 : ℝ)) e.eta).dot ht
    have h2 := ((SmoothVec.const (n := 0) (U := Set.Ici (0 : ℝ)) e.eta).sub ((SmoothMat.const e.J).mulVec ht)).dot
      (SmoothVec.const m0)
    have h3 := hN.det.log hdet
    exact (contDiffOn_const.add (contDiffOn_const.mul (contDiffOn_const.sub h3))).add (contDiffOn_const.mul (h1.add h2))

theorem diffuse_zero (e : CElem (Fin nx)) (hd : e.J.det ≠ 0) (m0 : Fin nx → ℝ) {P0 : Matrix (Fin nx) (Fin nx) ℝ}
    (hPd : P0.det ≠ 0) : diffuseKF e m0 P0 0 =
      ⟨e.A *ᵥ (e.J⁻¹ *ᵥ e.eta) + e.b, e.A * e.J⁻¹ * e.Aᵀ + e.C, flatLog e⟩ := by
  have hu : IsUnit e.J.det := isUnit_iff_ne_zero.mpr hd
  have hPu : IsUnit P0.det := isUnit_iff_ne_zero.mpr hPd
  have h1 : (P0 * e.J)⁻¹ * P0 = e.J⁻¹ := by
    rw [Matrix.mul_inv_rev, Matrix.mul_assoc, Matrix.nonsing_inv_mul _ hPu, Matrix.mul_one]
  have h2 : e.eta - e.J *ᵥ (e.J⁻¹ *ᵥ e.eta) = 0 := by
    rw [Matrix.mulVec_mulVec, Matrix.mul_nonsing_inv _ hu, Matrix.one_mulVec, sub_self]
  have h3 : (P0 * e.J)⁻¹ *ᵥ P0 *ᵥ e.eta = e.J⁻¹ *ᵥ e.eta := by rw [Matrix.mulVec_mulVec, h1]
  rw [diffuseKF, zero_smul, zero_add, zero_smul, zero_add, h1, h3, h2, zero_dotProduct, Matrix.det_mul,
    Real.log_mul hPd hd, flatLog]
  congr 1
  ring

theorem WithPrior.step {κ : ℝ} {m0 : Fin nx → ℝ} {P0 : Matrix (Fin nx) (Fin nx) ℝ} {cb cb' : Callbacks nx ny Inp} {u₀ : Inp}
    {us : List Inp} (h : WithPrior κ m0 P0 cb cb' u₀ us) : ∀ u ∈ us, stepOf cb' u = stepOf cb u := fun u hu => by
  rw [stepOf, stepOf, h.dynamics u hu, h.observation u hu]

theorem WithPrior.kfAt {κ : ℝ} (hκ : 0 < κ) {m0 : Fin nx → ℝ} {P0 : Matrix (Fin nx) (Fin nx) ℝ} (hP : IsGram P0)
    (hPd : P0.det ≠ 0) {cb cb' : Callbacks nx ny Inp} {u₀ : Inp} {us : List Inp} (h : WithPrior κ m0 P0 cb cb' u₀ us)
    (hR : ∀ u ∈ us, (stepOf cb u).R.det ≠ 0) (t : ℕ) (hd : (comp ((us.take t).map (stepOf cb))).J.det ≠ 0) :
    kfAt cb' u₀ us t = { diffuseKF (comp ((us.take t).map (stepOf cb))) m0 P0 κ⁻¹ with
      l := (diffuseKF (comp ((us.take t).map (stepOf cb))) m0 P0 κ⁻¹).l -
        1 / 2 * Real.log ((2 * Real.pi * κ) • P0).det } := by
  have hmap : (us.take t).map (stepOf cb') = (us.take t).map (stepOf cb) :=
    List.map_congr_left fun u hu => h.step u (List.mem_of_mem_take hu)
  have hR' : ∀ s ∈ (us.take t).map (stepOf cb), s.R.det ≠ 0 := by
    intro s hs
    obtain ⟨u, hu, rfl⟩ := List.mem_map.mp hs
    exact hR u (List.mem_of_mem_take hu)
  obtain ⟨e, he⟩ : ∃ e, e = comp ((us.take t).map (stepOf cb)) := ⟨_, rfl⟩
  have hv : e.Valid := he ▸ comp_valid _ hR'
  obtain ⟨f1, f2, f3⟩ := fold_eq ((us.take t).map (stepOf cb)) ⟨m0, κ • P0, 0⟩ (smul_gram hP hκ.le) hR'
  rw [← he] at f1 f2 f3 hd ⊢
  obtain ⟨N, hN⟩ : ∃ N, N = κ⁻¹ • (1 : Matrix (Fin nx) (Fin nx) ℝ) + P0 * e.J := ⟨_, rfl⟩
  have hNd : N.det ≠ 0 := hN ▸ diffuse_det hv.2 hd hP hPd (inv_nonneg.mpr hκ.le)
  have hD : elimD (κ • P0) e.J = κ⁻¹ • N⁻¹ := by
    rw [elimD]
    apply Matrix.inv_eq_right_inv
    have h1 : 1 + κ • P0 * e.J = κ • N := by
      rw [hN, smul_add, smul_smul, mul_inv_cancel₀ hκ.ne', one_smul, Matrix.smul_mul]
    rw [h1, Matrix.smul_mul, Matrix.mul_smul, smul_smul, mul_inv_cancel₀ hκ.ne', one_smul,
      Matrix.mul_nonsing_inv _ (isUnit_iff_ne_zero.mpr hNd)]
  have ht : elimD (κ • P0) e.J *ᵥ (m0 + (κ • P0) *ᵥ e.eta) = N⁻¹ *ᵥ (κ⁻¹ • m0 + P0 *ᵥ e.eta) := by
    rw [hD, Matrix.smul_mulVec, ← Matrix.mulVec_smul, smul_add, Matrix.smul_mulVec, smul_smul, inv_mul_cancel₀ hκ.ne',
      one_smul]
  have hP' : elimD (κ • P0) e.J * (κ • P0) = N⁻¹ * P0 := by
    rw [hD, Matrix.smul_mul, Matrix.mul_smul, smul_smul, inv_mul_cancel₀ hκ.ne', one_smul]
  have hl : Real.log (elimD (κ • P0) e.J).det = -(nx * Real.log κ) - Real.log N.det := by
    rw [hD, Matrix.det_smul, Matrix.det_nonsing_inv, Ring.inverse_eq_inv', Fintype.card_fin,
      Real.log_mul (pow_ne_zero _ (inv_ne_zero hκ.ne')) (inv_ne_zero hNd), Real.log_pow, Real.log_inv, Real.log_inv]
    ring
  have hl2 : Real.log ((2 * Real.pi * κ) • P0).det = nx * Real.log (2 * Real.pi) + nx * Real.log κ + Real.log P0.det := by
    rw [Matrix.det_smul, Fintype.card_fin, Real.log_mul (by positivity) hPd, Real.log_pow,
      Real.log_mul (by positivity) hκ.ne']
    ring
  have e0 : Kalman.kfAt cb' u₀ us t = ((us.take t).map (stepOf cb)).foldl kfStep ⟨m0, κ • P0, 0⟩ := by
    rw [Kalman.kfAt, hmap, h.mean, h.cov]
  have ext : ∀ k k' : KF nx, k.m = k'.m → k.P = k'.P → k.l = k'.l → k = k' := by
    rintro ⟨_, _, _⟩ ⟨_, _, _⟩ rfl rfl rfl
    rfl
  rw [e0]
  refine ext _ _ ?_ ?_ ?_
  · rw [f1, diffuseKF, ht, hN]
  · rw [f2, diffuseKF, hP', hN]
  · rw [f3, diffuseKF, ht, hl, hl2, hN]
    ring

theorem tendsto_diffuse {f g : ℝ → ℝ} (hf : ContDiffOn ℝ 0 f (Set.Ici 0)) (h : ∀ κ > 0, g κ = f κ⁻¹) :
    Tendsto g atTop (𝓝 (f 0)) := by
  have h1 : ContinuousWithinAt f (Set.Ici 0) 0 := (contDiffOn_zero.mp hf) 0 Set.self_mem_Ici
  have h2 : Tendsto (fun κ : ℝ => κ⁻¹) atTop (𝓝[Set.Ici 0] 0) := by
    refine tendsto_nhdsWithin_iff.mpr ⟨tendsto_inv_atTop_zero, ?_⟩
    filter_upwards [eventually_gt_atTop 0] with κ hκ
    exact (inv_pos.mpr hκ).le
  refine (h1.tendsto.comp h2).congr' ?_
  filter_upwards [eventually_gt_atTop 0] with κ hκ
  exact (h κ hκ).symm

/-- **C137**, Kalman filter: as the covariance of the prior grows, the filter tends to the posterior of a flat prior,
whatever the mean and the shape of the covariance. -/
theorem kalman_diffuse (qr : QR) (rng : Prng K) (cb : Callbacks nx ny Inp) (u₀ : Inp) (us : List Inp) (parallel : Bool)
    (key : Option K) (hR : ∀ u ∈ us, (stepOf cb u).R.det ≠ 0) (t : ℕ) (ht : t ≤ us.length)
    (hobs : Observable ((us.take t).map (stepOf cb))) :
    ∃ (m : Fin nx → ℝ) (L : Matrix (Fin nx) (Fin nx) ℝ) (z : ℝ),
      (∀ φ : (Fin nx → ℝ) → ℝ≥0∞, Measurable φ → flatExp ((us.take t).map (stepOf cb)) (fun p => φ (p t)) =
        ENNReal.ofReal (Real.exp z) * ∫⁻ x, φ x ∂gauss m L) ∧
      ∀ (m0 : Fin nx → ℝ) (P0 : Matrix (Fin nx) (Fin nx) ℝ), P0.PosDef → ∀ cb' : ℝ → Callbacks nx ny Inp,
        (∀ κ > 0, WithPrior κ m0 P0 cb (cb' κ) u₀ us) →
        ∃ (states : ℝ → List (FilterState nx Inp)) (s : ℝ → FilterState nx Inp) (m' : ℝ → Fin nx → ℝ)
          (L' : ℝ → Matrix (Fin nx) (Fin nx) ℝ),
          (∀ κ > 0, (filter rng (buildFilter qr (cb' κ)) (u₀ :: us) parallel key).result = .ok (states κ) ∧
            (states κ)[t]? = some (s κ) ∧ (s κ).mean = some (m' κ) ∧ (s κ).cholCov = some (L' κ)) ∧
          (∀ i, Tendsto (fun κ => m' κ i) atTop (𝓝 (m i))) ∧
          (∀ i j, Tendsto (fun κ => (L' κ * (L' κ)ᵀ) i j) atTop (𝓝 ((L * Lᵀ) i j))) ∧
          ∀ l : ℝ → ℝ, (∀ κ > 0, IsLower ((cb' κ).getInit u₀).2) → (∀ κ > 0, (s κ).logNormalizingConstant = some (l κ)) →
            Tendsto (fun κ => l κ + 1 / 2 * Real.log ((2 * Real.pi * κ) • P0).det) atTop (𝓝 z) := by
  have hR' : ∀ s ∈ (us.take t).map (stepOf cb), s.R.det ≠ 0 := by
    intro s hs
    obtain ⟨u, hu, rfl⟩ := List.mem_map.mp hs
    exact hR u (List.mem_of_mem_take hu)
  have hlen : ((us.take t).map (stepOf cb)).length = t := by simp [ht]
  have hv := comp_valid _ hR'
  have hd := hobs.det hR'
  obtain ⟨e, he⟩ : ∃ e, e = comp ((us.take t).map (stepOf cb)) := ⟨_, rfl⟩
  obtain ⟨L, hL⟩ : ∃ L : Matrix (Fin nx) (Fin nx) ℝ, L * Lᵀ = e.A * e.J⁻¹ * e.Aᵀ + e.C :=
    (((he ▸ hv.2 : IsGram e.J).inv.conj e.A).add (he ▸ hv.1)).exists_sqrt
  refine ⟨e.A *ᵥ (e.J⁻¹ *ᵥ e.eta) + e.b, L, flatLog e, fun φ hφ => ?_, fun m0 P0 hP0 cb' h => ?_⟩
  · have := flat_last _ hR' hd L (by rw [hL, he]) hφ
    rw [hlen] at this
    rw [this, he]
  · have hPg : IsGram P0 := isGram_iff.mpr hP0.posSemidef
    have hPd : P0.det ≠ 0 := hP0.det_pos.ne'
    have hk := fun κ (hκ : κ > 0) => (h κ hκ).kfAt hκ hPg hPd hR t hd
    rw [← he] at hk hd hv
    have hsm := smooth_diffuse hv hd hPg hPd (m0 := m0)
    have h0 := diffuse_zero e hd m0 hPd
    have hrun : ∀ κ : ℝ, ∃ (st : List (FilterState nx Inp)) (s : FilterState nx Inp) (L' : Matrix (Fin nx) (Fin nx) ℝ), κ > 0 →
        (filter rng (buildFilter qr (cb' κ)) (u₀ :: us) parallel key).result = .ok st ∧ st[t]? = some s ∧
        s.mean = some (kfAt (cb' κ) u₀ us t).m ∧ s.cholCov = some L' ∧ L' * L'ᵀ = (kfAt (cb' κ) u₀ us t).P ∧
        (IsLower ((cb' κ).getInit u₀).2 → ∀ l, s.logNormalizingConstant = some l → l = (kfAt (cb' κ) u₀ us t).l) := by
      intro κ
      by_cases hκ : κ > 0
      · obtain ⟨st, a1, -, a2⟩ := Linearize.kalman_run qr rng (cb' κ) u₀ us parallel key
          (fun u hu => by rw [(h κ hκ).step u hu]; exact hR u hu)
        obtain ⟨s, a3, a4, ⟨L', a5, a6⟩, a7⟩ := a2 t ht
        exact ⟨st, s, L', fun _ => ⟨a1, a3, a4, a5, a6, a7⟩⟩
      · exact ⟨[], ⟨none, u₀⟩, 0, fun h => absurd h hκ⟩
    choose st s L' hs using hrun
    refine ⟨st, s, fun κ => (kfAt (cb' κ) u₀ us t).m, L', fun κ hκ => ⟨(hs κ hκ).1, (hs κ hκ).2.1, (hs κ hκ).2.2.1,
      (hs κ hκ).2.2.2.1⟩, fun i => ?_, fun i j => ?_, fun l hlow hl => ?_⟩
    · have := tendsto_diffuse (g := fun κ => (kfAt (cb' κ) u₀ us t).m i) (hsm.m i) fun κ hκ => by
        dsimp only; rw [hk κ hκ]
      dsimp only at this ⊢
      rwa [h0] at this
    · have := tendsto_diffuse (g := fun κ => (L' κ * (L' κ)ᵀ) i j) (hsm.P i j) fun κ hκ => by
        dsimp only; rw [(hs κ hκ).2.2.2.2.1, hk κ hκ]
      dsimp only at this
      rw [h0] at this
      rw [hL]
      exact this
    · have := tendsto_diffuse (g := fun κ => l κ + 1 / 2 * Real.log ((2 * Real.pi * κ) • P0).det) hsm.l fun κ hκ => by
        rw [(hs κ hκ).2.2.2.2.2 (hlow κ hκ) _ (hl κ hκ), hk κ hκ]
        ring
      rwa [h0] at this

/-! ## Smoother -/

theorem flat_evidence (ss : List (Step nx ny)) (hR : ∀ s ∈ ss, s.R.det ≠ 0) (hobs : Observable ss) :
    flatExp ss (fun _ => 1) = ENNReal.ofReal (Real.exp (flatLog (comp ss))) := by
  have hv := comp_valid ss hR
  obtain ⟨W, hW⟩ := ((hv.2.inv.conj (comp ss).A).add hv.1).exists_sqrt
  have := flat_last ss hR (hobs.det hR) W hW (φ := fun _ => 1) measurable_const
  rw [this, lintegral_const, measure_univ, mul_one, mul_one]

/-- The evidence of a proper prior, normalised, tends to that of the flat prior. -/
theorem joint_tendsto_flat {m0 : Fin nx → ℝ} {P0 : Matrix (Fin nx) (Fin nx) ℝ} (hP0 : P0.PosDef)
    {L : ℝ → Matrix (Fin nx) (Fin nx) ℝ} (hL : ∀ κ > 0, L κ * (L κ)ᵀ = κ • P0) (ss : List (Step nx ny))
    {f : (ℕ → Fin nx → ℝ) → ℝ≥0∞} (hf : Measurable f) (hfin : flatExp ss f ≠ ∞) :
    Tendsto (fun κ => ENNReal.ofReal (Real.exp (1 / 2 * Real.log ((2 * Real.pi * κ) • P0).det)) * jointExp m0 (L κ) ss f)
      atTop (𝓝 (flatExp ss f)) := by
  have hPd := hP0.det_pos.ne'
  have hu : IsUnit P0.det := isUnit_iff_ne_zero.mpr hPd
  have hm := measurable_pathExp' ss hf
  have key : ∀ κ > 0, ENNReal.ofReal (Real.exp (1 / 2 * Real.log ((2 * Real.pi * κ) • P0).det)) * jointExp m0 (L κ) ss f =
      ∫⁻ x, ENNReal.ofReal (Real.exp (-(1 / 2) * (κ⁻¹ * ((x - m0) ⬝ᵥ P0⁻¹ *ᵥ (x - m0))))) * pathExp ss f x := by
    intro κ hκ
    have hLd : (L κ).det ≠ 0 := by
      intro h0
      have h1 := congrArg Matrix.det (hL κ hκ)
      rw [Matrix.det_mul, h0, zero_mul, Matrix.det_smul] at h1
      exact mul_ne_zero (pow_ne_zero _ hκ.ne') hPd h1.symm
    have hdens : Measurable fun x : Fin nx → ℝ => ENNReal.ofReal (Real.exp (gaussLogDensity m0 (κ • P0) x)) := by
      unfold gaussLogDensity
      simp only [dotProduct, Matrix.mulVec]
      fun_prop
    rw [jointExp, gauss_eq_withDensity _ _ hLd, hL κ hκ, lintegral_withDensity_eq_lintegral_mul _ hdens hm,
      ← lintegral_const_mul _ (hdens.mul hm)]
    refine lintegral_congr fun x => ?_
    rw [Pi.mul_apply, ← mul_assoc, ← ENNReal.ofReal_mul (Real.exp_pos _).le, ← Real.exp_add]
    congr 3
    have hi : (κ • P0)⁻¹ = κ⁻¹ • P0⁻¹ := by
      apply Matrix.inv_eq_right_inv
      rw [Matrix.smul_mul, Matrix.mul_smul, smul_smul, mul_inv_cancel₀ hκ.ne', one_smul, Matrix.mul_nonsing_inv _ hu]
    rw [gaussLogDensity, hi, Matrix.smul_mulVec, dotProduct_smul, smul_eq_mul, Matrix.det_smul, Matrix.det_smul,
      Fintype.card_fin, Real.log_mul (by positivity) hPd, Real.log_mul (by positivity) hPd, Real.log_pow, Real.log_pow,
      Real.log_mul (by positivity) hκ.ne']
    ring
  have hq : ∀ x : Fin nx → ℝ, 0 ≤ (x - m0) ⬝ᵥ P0⁻¹ *ᵥ (x - m0) := fun x =>
    gram_nonneg (isGram_iff.mpr hP0.posSemidef).inv _
  have h1 : Tendsto (fun κ => ∫⁻ x, ENNReal.ofReal (Real.exp (-(1 / 2) * (κ⁻¹ * ((x - m0) ⬝ᵥ P0⁻¹ *ᵥ (x - m0))))) *
      pathExp ss f x) atTop (𝓝 (∫⁻ x, pathExp ss f x)) := by
    refine tendsto_lintegral_filter_of_dominated_convergence (pathExp ss f) ?_ ?_ hfin ?_
    · refine Eventually.of_forall fun κ => Measurable.mul ?_ hm
      simp only [dotProduct, Matrix.mulVec, Pi.sub_apply]
      fun_prop
    · filter_upwards [eventually_gt_atTop 0] with κ hκ
      refine Eventually.of_forall fun x => ?_
      have : ENNReal.ofReal (Real.exp (-(1 / 2) * (κ⁻¹ * ((x - m0) ⬝ᵥ P0⁻¹ *ᵥ (x - m0))))) ≤ 1 := by
        rw [ENNReal.ofReal_le_one, Real.exp_le_one_iff]
        have := mul_nonneg (inv_pos.mpr hκ).le (hq x)
        linarith
      exact mul_le_of_le_one_left zero_le this
    · have hfin' := ae_lt_top hm hfin
      filter_upwards [hfin'] with x hx
      have h2 : Tendsto (fun κ : ℝ => Real.exp (-(1 / 2) * (κ⁻¹ * ((x - m0) ⬝ᵥ P0⁻¹ *ᵥ (x - m0))))) atTop (𝓝 1) := by
        have h3 : Tendsto (fun κ : ℝ => -(1 / 2) * (κ⁻¹ * ((x - m0) ⬝ᵥ P0⁻¹ *ᵥ (x - m0)))) atTop (𝓝 0) := by
          have := (tendsto_inv_atTop_zero.mul_const ((x - m0) ⬝ᵥ P0⁻¹ *ᵥ (x - m0))).const_mul (-(1 / 2) : ℝ)
          simpa using this
        have := (Real.continuous_exp.tendsto 0).comp h3
        rwa [Real.exp_zero] at this
      have h4 := (ENNReal.tendsto_ofReal h2)
      rw [ENNReal.ofReal_one] at h4
      have := ENNReal.Tendsto.mul_const h4 (b := pathExp ss f x) (.inr hx.ne)
      rwa [one_mul] at this
  refine h1.congr' ?_
  filter_upwards [eventually_gt_atTop 0] with κ hκ
  exact (key κ hκ).symm

/-- **C137**, Kalman smoother: the smoothing law tends to the posterior of a flat prior. -/
theorem kalman_smoother_diffuse (qr : QR) (rng rng' : Prng K) (cb : Callbacks nx ny Inp) (u₀ : Inp) (us : List Inp)
    (hus : us ≠ []) (parallel parallel' : Bool) (key key' : Option K) (opts : SmootherOpts nx Inp)
    (hR : ∀ u ∈ us, (stepOf cb u).R.det ≠ 0) (hQ : ∀ u ∈ us, (stepOf cb u).cholQ.det ≠ 0)
    (hobs : Observable (us.map (stepOf cb))) (t : ℕ) (ht : t ≤ us.length) :
    flatExp (us.map (stepOf cb)) (fun _ => 1) ≠ 0 ∧ flatExp (us.map (stepOf cb)) (fun _ => 1) ≠ ∞ ∧
      ∀ (m0 : Fin nx → ℝ) (P0 : Matrix (Fin nx) (Fin nx) ℝ), P0.PosDef → ∀ cb' : ℝ → Callbacks nx ny Inp,
        (∀ κ > 0, WithPrior κ m0 P0 cb (cb' κ) u₀ us) →
        ∃ (filterStates : ℝ → List (FilterState nx Inp)) (states : ℝ → List (SmootherState nx Inp))
          (s : ℝ → SmootherState nx Inp) (m' : ℝ → Fin nx → ℝ) (L' : ℝ → Matrix (Fin nx) (Fin nx) ℝ),
          (∀ κ > 0, (filter rng (buildFilter qr (cb' κ)) (u₀ :: us) parallel key).result = .ok (filterStates κ) ∧
            (smoother rng' FilterState.modelInputs (fun u => .ok (opts.dummy u))
              (buildSmoother qr (cb' κ).getDynamics opts) (filterStates κ) none parallel' key').result = .ok (states κ) ∧
            (states κ)[t]? = some (s κ) ∧ (s κ).mean = some (m' κ) ∧ (s κ).cholCov = some (L' κ)) ∧
          ∀ φ : (Fin nx → ℝ) → ℝ≥0∞, Measurable φ → flatExp (us.map (stepOf cb)) (fun p => φ (p t)) ≠ ∞ →
            Tendsto (fun κ => ∫⁻ x, φ x ∂gauss (m' κ) (L' κ)) atTop
              (𝓝 (flatExp (us.map (stepOf cb)) (fun p => φ (p t)) / flatExp (us.map (stepOf cb)) fun _ => 1)) := by
  have hR' : ∀ s ∈ us.map (stepOf cb), s.R.det ≠ 0 := by
    intro s hs
    obtain ⟨u, hu, rfl⟩ := List.mem_map.mp hs
    exact hR u hu
  have hZ := flat_evidence _ hR' hobs
  have hZ0 : flatExp (us.map (stepOf cb)) (fun _ => 1) ≠ 0 := by
    rw [hZ]; exact (ENNReal.ofReal_pos.mpr (Real.exp_pos _)).ne'
  have hZt : flatExp (us.map (stepOf cb)) (fun _ => 1) ≠ ∞ := by rw [hZ]; exact ENNReal.ofReal_ne_top
  refine ⟨hZ0, hZt, fun m0 P0 hP0 cb' h => ?_⟩
  have hrun : ∀ κ : ℝ, ∃ (fs : List (FilterState nx Inp)) (st : List (SmootherState nx Inp)) (s : SmootherState nx Inp)
      (m : Fin nx → ℝ) (L' : Matrix (Fin nx) (Fin nx) ℝ) (l : ℝ), κ > 0 →
      ((filter rng (buildFilter qr (cb' κ)) (u₀ :: us) parallel key).result = .ok fs ∧
        (smoother rng' FilterState.modelInputs (fun u => .ok (opts.dummy u))
          (buildSmoother qr (cb' κ).getDynamics opts) fs none parallel' key').result = .ok st ∧
        st[t]? = some s ∧ s.mean = some m ∧ s.cholCov = some L') ∧
      ∀ φ : (Fin nx → ℝ) → ℝ≥0∞, Measurable φ →
        jointExp m0 ((cb' κ).getInit u₀).2 (us.map (stepOf cb)) (fun p => φ (p t)) =
          ENNReal.ofReal (Real.exp l) * ∫⁻ x, φ x ∂gauss m L' := by
    intro κ
    by_cases hκ : κ > 0
    · have hmap : us.map (stepOf (cb' κ)) = us.map (stepOf cb) := List.map_congr_left (h κ hκ).step
      have hRκ : ∀ u ∈ us, (stepOf (cb' κ) u).R.det ≠ 0 := fun u hu => by rw [(h κ hκ).step u hu]; exact hR u hu
      obtain ⟨fs, hf, -, -⟩ := Linearize.kalman_run qr rng (cb' κ) u₀ us parallel key hRκ
      obtain ⟨st, l, a1, -, a2, -⟩ := kalman_smoother_exact qr rng rng' (cb' κ) u₀ us hus parallel parallel' key key' opts hRκ
        fs hf (fun t s L u _ _ hu => by
          rw [(h κ hκ).step u (List.mem_of_getElem? hu)]
          exact pred_det_of_Q (isGram_of L) (hQ u (List.mem_of_getElem? hu))) none (.inl rfl)
      obtain ⟨s, m, L', b1, b2, b3, b4⟩ := a2 t ht
      rw [(h κ hκ).mean, hmap] at b4
      exact ⟨fs, st, s, m, L', l, fun _ => ⟨⟨hf, a1, b1, b2, b3⟩, b4⟩⟩
    · exact ⟨[], [], ⟨none, u₀, none, none⟩, 0, 0, 0, fun h => absurd h hκ⟩
  choose fs st s m L' l hs using hrun
  refine ⟨fs, st, s, m, L', fun κ hκ => (hs κ hκ).1, fun φ hφ hfin => ?_⟩
  have hφ' : Measurable fun p : ℕ → Fin nx → ℝ => φ (p t) := hφ.comp (measurable_pi_apply t)
  have l1 := joint_tendsto_flat (m0 := m0) hP0 (L := fun κ => ((cb' κ).getInit u₀).2) (fun κ hκ => (h κ hκ).cov)
    (us.map (stepOf cb)) hφ' hfin
  have l2 := joint_tendsto_flat (m0 := m0) hP0 (L := fun κ => ((cb' κ).getInit u₀).2) (fun κ hκ => (h κ hκ).cov)
    (us.map (stepOf cb)) (f := fun _ => 1) measurable_const hZt
  have l3 := ENNReal.Tendsto.div l1 (.inr hZ0) l2 (.inr hfin)
  refine l3.congr' ?_
  filter_upwards [eventually_gt_atTop 0] with κ hκ
  have e1 := (hs κ hκ).2 φ hφ
  have e2 := (hs κ hκ).2 (fun _ => 1) measurable_const
  rw [lintegral_const, measure_univ, mul_one, mul_one] at e2
  have hc0 : ENNReal.ofReal (Real.exp (1 / 2 * Real.log ((2 * Real.pi * κ) • P0).det)) ≠ 0 :=
    (ENNReal.ofReal_pos.mpr (Real.exp_pos _)).ne'
  have hl0 : ENNReal.ofReal (Real.exp (l κ)) ≠ 0 := (ENNReal.ofReal_pos.mpr (Real.exp_pos _)).ne'
  rw [e1, e2, ENNReal.mul_div_mul_left _ _ hc0 ENNReal.ofReal_ne_top, ENNReal.mul_div_right_comm,
    ENNReal.div_self hl0 ENNReal.ofReal_ne_top, one_mul]

/-! ## Non-vacuity -/

/-- Priors with scaled covariance exist for every model, with lower triangular factors if `P0` has one. -/
theorem exists_withPrior (cb : Callbacks nx ny Inp) (u₀ : Inp) (us : List Inp) (m0 : Fin nx → ℝ)
    (L0 : Matrix (Fin nx) (Fin nx) ℝ) (hL0 : IsLower L0) :
    ∃ cb' : ℝ → Callbacks nx ny Inp, (∀ κ > 0, WithPrior κ m0 (L0 * L0ᵀ) cb (cb' κ) u₀ us) ∧
      ∀ κ, IsLower ((cb' κ).getInit u₀).2 := by
  refine ⟨fun κ => ⟨fun _ => (m0, Real.sqrt κ • L0), cb.getDynamics, cb.getObservation⟩,
    fun κ hκ => ⟨rfl, ?_, fun _ _ => rfl, fun _ _ => rfl⟩, fun κ i j hij => ?_⟩
  · show (Real.sqrt κ • L0) * (Real.sqrt κ • L0)ᵀ = κ • (L0 * L0ᵀ)
    rw [Matrix.transpose_smul, Matrix.smul_mul, Matrix.mul_smul, smul_smul, Real.mul_self_sqrt hκ.le]
  · show (Real.sqrt κ • L0) i j = 0
    rw [Matrix.smul_apply, hL0 i j hij, smul_zero]

/-- A random walk with velocity whose position is observed: two observations determine the initial state, one does
not. -/
theorem exists_observable : ∃ cb : Callbacks 2 1 ℕ, (∀ u ∈ [1, 2], (stepOf cb u).R.det ≠ 0) ∧
    (∀ u ∈ [1, 2], (stepOf cb u).cholQ.det ≠ 0) ∧ Observable ([1, 2].map (stepOf cb)) ∧
    ¬ Observable ([1].map (stepOf cb)) := by
  let cb : Callbacks 2 1 ℕ := ⟨fun _ => (0, 1), fun _ => (!![1, 1; 0, 1], 0, 1), fun _ => (!![1, 0], 0, 1, ![some 5])⟩
  have hF : ∀ (u : ℕ) (x : Fin 2 → ℝ), (stepOf cb u).F *ᵥ x = ![x 0 + x 1, x 1] := by
    intro u x
    show !![1, 1; 0, 1] *ᵥ x = _
    funext i
    fin_cases i <;> simp [Matrix.mulVec, dotProduct, Fin.sum_univ_two]
  have hH : ∀ (u : ℕ) (x : Fin 2 → ℝ), obsH (stepOf cb u).y (stepOf cb u).H *ᵥ x = 0 ↔ x 0 = 0 := by
    intro u x
    have e : ∀ i, (obsH (stepOf cb u).y (stepOf cb u).H *ᵥ x) i = x 0 := by
      rintro ⟨i, hi⟩
      show ((!![1, 0] : Matrix (Fin 1) (Fin 2) ℝ) *ᵥ x) i = x 0
      fin_cases i
      simp [Matrix.mulVec, dotProduct, Fin.sum_univ_two]
    constructor
    · intro h
      have := congrFun h ⟨0, rfl⟩
      rwa [e] at this
    · intro h
      funext i
      rw [e, h]
      rfl
  refine ⟨cb, fun u _ => ?_, fun u _ => ?_, fun x hx => ?_, fun h => ?_⟩
  · exact obsR_det _ _ (by show ((1 : Matrix (Fin 1) (Fin 1) ℝ) * 1ᵀ).det ≠ 0; simp)
  · show (1 : Matrix (Fin 2) (Fin 2) ℝ).det ≠ 0
    simp
  · obtain ⟨h1, h2, -⟩ := hx
    rw [hH, hF] at h1
    rw [hF, hF, hH] at h2
    simp at h1 h2
    funext i
    fin_cases i
    · show x 0 = 0
      linarith
    · show x 1 = 0
      linarith
  · have := h ![1, -1] ⟨by rw [hH, hF]; simp, trivial⟩
    have := congrFun this 0
    simp at this

end

end Cuthbert.Kalman
