import Verif.Props.LinearizedFilters
import Verif.Lemmas.GaussInj

/-!
# Theorems about the Taylor filter (C38)
-/

namespace Cuthbert.Linearize
open MeasureTheory ProbabilityTheory Matrix Cuthbert Cuthbert.Spec Kalman
open scoped ENNReal

noncomputable section

set_option linter.unusedSectionVars false

variable {nx ny ny' n : ℕ} {Inp K : Type*}

/-! ## Specification -/

/-- The log density is, up to a constant, that of `N(m, P)`. -/
structure IsGaussian (rtol : ℝ) (p : Potential nx) (m : Fin nx → ℝ) (P : Matrix (Fin nx) (Fin nx) ℝ) :
    Prop where
  ad : p.AD
  cond : WellConditioned rtol P
  value : ∃ k, ∀ x, p.value x = gaussLogDensity m P x + k

/-- The conditional log density is, up to a constant, that of `N(F x + c, Q)`. -/
structure IsGaussianTransition (rtol : ℝ) (p : CondDensity nx nx) (F : Matrix (Fin nx) (Fin nx) ℝ)
    (c : Fin nx → ℝ) (Q : Matrix (Fin nx) (Fin nx) ℝ) : Prop where
  ad : p.AD
  cond : WellConditioned rtol Q
  value : ∃ k, ∀ x z, p.value x (fun i => some (z i)) = gaussLogDensity (F *ᵥ x + c) Q z + k

/-- What `get_dynamics_log_density` returns stands for the transition kernel: a Gaussian density with finite
linearisation points, or the request to skip the prediction. -/
inductive DynamicsIs (rtol : ℝ) : CondDensity nx nx × (Fin nx → Option ℝ) × (Fin nx → Option ℝ) →
    ((Fin nx → ℝ) → Measure (Fin nx → ℝ)) → Prop
  | transition (p : CondDensity nx nx) (xPrev xCurr : Fin nx → ℝ) (F : Matrix (Fin nx) (Fin nx) ℝ)
      (c : Fin nx → ℝ) (L : Matrix (Fin nx) (Fin nx) ℝ) (h : IsGaussianTransition rtol p F c (L * Lᵀ)) :
      DynamicsIs rtol (p, fun i => some (xPrev i), fun i => some (xCurr i)) fun x => gauss (F *ᵥ x + c) L
  | skip (p : CondDensity nx nx) : DynamicsIs rtol (p, fun _ => none, fun _ => none) Measure.dirac

/-- A component is observed or missing. -/
def maskY (mask : Fin n → Bool) : Fin n → Option ℝ := fun i => if mask i then some 0 else none

/-- What `get_observation_func` returns stands for the function of the state by which the predictive law is
multiplied: a Gaussian conditional density evaluated at the observed components of `y`, or a Gaussian potential
of some of the components of the state. -/
inductive ObservationIs (rtol : ℝ) (ign : Bool) : ObsOutput nx ny → ((Fin nx → ℝ) → ℝ≥0∞) → Prop
  | density (p : CondDensity nx ny) (x : Fin nx → ℝ) (y : Fin ny → Option ℝ) (H : Matrix (Fin ny) (Fin nx) ℝ)
      (d : Fin ny → ℝ) (R : Matrix (Fin ny) (Fin ny) ℝ) (ad : p.AD) (miss : ign = true ∨ ∀ i, y i ≠ none)
      (cond : WellConditioned rtol (R.submatrix Subtype.val Subtype.val : Matrix (Obs y) (Obs y) ℝ))
      (value : ∃ k, ∀ (x : Fin nx → ℝ) (z : Obs y → ℝ), p.value x (fillObs y z) =
        gaussLogDensity (obsH y H *ᵥ x + obsV y d) (R.submatrix Subtype.val Subtype.val) z + k) :
      ObservationIs rtol ign (.density p (fun i => some (x i)) y) fun x => ENNReal.ofReal (Real.exp
        (gaussLogDensity (obsH y H *ᵥ x + obsV y d) (R.submatrix Subtype.val Subtype.val) (obsY y)))
  | potential (p : Potential nx) (x : Fin nx → ℝ) (mask : Fin nx → Bool) (m : Obs (maskY mask) → ℝ)
      (P : Matrix (Obs (maskY mask)) (Obs (maskY mask)) ℝ) (ad : p.AD)
      (miss : ign = true ∨ ∀ i, mask i = true) (cond : WellConditioned rtol P)
      (value : ∃ k, ∀ x, p.value x = gaussLogDensity m P (fun i => x i.1) + k) :
      ObservationIs rtol ign (.potential p fun i => some (x i)) fun x => ENNReal.ofReal (Real.exp
        (gaussLogDensity m P fun i => x i.1))

/-- No NaN in the state. -/
def LState.Finite (s : LState nx Inp) : Prop :=
  s.mean ≠ none ∧ s.cholCov ≠ none ∧ s.logNormalizingConstant ≠ none

/-- The model that the callbacks stand for: a Gaussian initial law with mean `m0` and covariance `P0` and, for
each input, a transition kernel and a potential, the same for every state that the callbacks are given, whatever
linearisation points they choose. -/
structure Represented (cb : TCallbacks nx ny Inp) (u₀ : Inp) (us : List Inp) (m0 : Fin nx → ℝ)
    (P0 : Matrix (Fin nx) (Fin nx) ℝ) (fk : Inp → FKStep (Fin nx → ℝ)) : Prop where
  init : ∃ (p : Potential nx) (x : Fin nx → ℝ), cb.getInit u₀ = (p, fun i => some (x i)) ∧ IsGaussian cb.rtol p m0 P0
  dynamics : ∀ u ∈ us, ∀ s : LState nx Inp, s.Finite → DynamicsIs cb.rtol (cb.getDynamics s u) (fk u).kernel
  observation : ∀ u ∈ us, ∃ g, (fk u).pot = (fun _ => g) ∧ ∀ s : LState nx Inp, s.Finite →
    ObservationIs cb.rtol cb.ignoreNanDims (cb.getObservation s u) g

/-! ## What the linearised parameters are -/

theorem gauss_zero_cov {ι κ : Type*} [Fintype ι] [Fintype κ] (m : ι → ℝ) :
    gauss m (0 : Matrix ι κ ℝ) = Measure.dirac m := by
  have : (fun ε : κ → ℝ => m + (0 : Matrix ι κ ℝ) *ᵥ ε) = fun _ => m := by
    funext ε; rw [Matrix.zero_mulVec, add_zero]
  have hp : IsProbabilityMeasure (stdNormal κ) := by unfold stdNormal; infer_instance
  rw [gauss, this, Measure.map_const, measure_univ, one_smul]

theorem finite_some {a b : ℕ} (A : Fin a → Fin b → Option ℝ) (M : Matrix (Fin a) (Fin b) ℝ)
    (h : ∀ i j, A i j = some (M i j)) : finite A = some M := by
  rw [finite, if_pos fun i j => by rw [h]; rfl]
  congr 1
  ext i j
  rw [Matrix.of_apply, h]; rfl

theorem finiteVec_some {a : ℕ} (v : Fin a → Option ℝ) (w : Fin a → ℝ) (h : ∀ i, v i = some (w i)) :
    finiteVec v = some w := by
  rw [finiteVec, if_pos fun i => by rw [h]; rfl]
  congr 1
  funext i
  rw [h]; rfl

theorem IsGaussianTransition.linearize {rtol : ℝ} {p : CondDensity nx nx} {F : Matrix (Fin nx) (Fin nx) ℝ}
    {c : Fin nx → ℝ} {Q : Matrix (Fin nx) (Fin nx) ℝ} (h : IsGaussianTransition rtol p F c Q) (qr : QR)
    (svd : SVD) (hr : 0 ≤ rtol) (ign : Bool) (x y : Fin nx → ℝ) :
    ∃ L : Matrix (Fin nx) (Fin nx) ℝ, IsLower L ∧ L * Lᵀ = Q ∧
      linearizeLogDensity qr svd rtol ign p (fun i => some (x i)) (fun i => some (y i)) =
        (fun i j => some (F i j), fun i => some (c i), fun i j => some (L i j)) := by
  obtain ⟨k, hk⟩ := h.value
  obtain ⟨L, h1, h2, h3, h4, h5, -, -⟩ := linearize_log_density_exact qr svd rtol hr ign p h.ad F c Q x
    (fun i => some (y i)) (Or.inr fun i => by simp) (h.cond.obs _) k (fun x z => by
      have : fillObs (fun i => some (y i)) z = fun i => some ((z ∘ obsAll y) i) := by
        funext i; simp [fillObs, obsAll]
      rw [this, hk, ← gaussLogDensity_reindex (obsAll y)]; rfl)
  refine ⟨L.submatrix (obsAll y) (obsAll y), fun i j hij => h4 _ _ hij, ?_, ?_⟩
  · rw [Matrix.transpose_submatrix, Matrix.submatrix_mul_equiv, h5]; rfl
  · refine Prod.ext ?_ (Prod.ext ?_ ?_)
    · funext i j; exact h1 (obsAll y i) j
    · funext i; exact h2 (obsAll y i)
    · funext i j; exact h3 (obsAll y i) (obsAll y j)

/-- The linearised dynamics give the transition kernel. -/
theorem DynamicsIs.linearize {cb : TCallbacks nx ny Inp} {s : LState nx Inp} {u : Inp}
    {κ : (Fin nx → ℝ) → Measure (Fin nx → ℝ)} (h : DynamicsIs cb.rtol (cb.getDynamics s u) κ) (qr : QR)
    (svd : SVD) (hr : 0 ≤ cb.rtol) : ∃ F c L, tDynamics qr svd cb s u = some (F, c, L) ∧
      (κ = fun x => gauss (F *ᵥ x + c) L) ∧ ((L * Lᵀ).det ≠ 0 ∨ F.det ≠ 0 ∧ κ = Measure.dirac) := by
  obtain ⟨g, hg⟩ : ∃ g, g = cb.getDynamics s u := ⟨_, rfl⟩
  unfold tDynamics
  rw [← hg] at h ⊢
  cases h with
  | skip p =>
    refine ⟨1, 0, 0, ?_, ?_, Or.inr ⟨by rw [Matrix.det_one]; exact one_ne_zero, rfl⟩⟩
    · simp only []
      rw [if_pos ⟨fun _ => rfl, fun _ => rfl⟩]
    · funext x
      rw [gauss_zero_cov, Matrix.one_mulVec, add_zero]
  | transition p xPrev xCurr F c L hp =>
    obtain ⟨L', -, hL', hlin⟩ := hp.linearize qr svd hr cb.ignoreNanDims xPrev xCurr
    have hk : (fun x => gauss (F *ᵥ x + c) L) = fun x => gauss (F *ᵥ x + c) L' := by
      funext x
      exact gauss_eq_of_gram _ _ _ hL'.symm
    simp only []
    rw [hlin]
    by_cases hs : skipPredict (fun i => some (xCurr i)) fun i => some (xPrev i)
    · have : IsEmpty (Fin nx) := ⟨fun i => by have := hs.1 i; cases this⟩
      refine ⟨1, 0, 0, by rw [if_pos hs], ?_, Or.inl (by rw [Matrix.det_isEmpty]; exact one_ne_zero)⟩
      rw [hk]
      funext x
      rw [Subsingleton.elim F 1, Subsingleton.elim c 0, Subsingleton.elim L' 0]
    · refine ⟨F, c, L', ?_, hk, Or.inl (by rw [hL']; exact hp.cond.det_ne_zero)⟩
      rw [if_neg hs, finite_some _ F fun _ _ => rfl, finiteVec_some _ c fun _ => rfl,
        finite_some _ L' fun _ _ => rfl]
      rfl

/-- The observation parameters used by the update represent multiplication by `g`. -/
def Represents (o : ObsParams nx n) (g : (Fin nx → ℝ) → ℝ≥0∞) : Prop :=
  (obsL o.y o.cholR * (obsL o.y o.cholR)ᵀ).det ≠ 0 ∧ g = fun x => ENNReal.ofReal (Real.exp
    (gaussLogDensity (obsH o.y o.H *ᵥ x + obsV o.y o.d) (obsL o.y o.cholR * (obsL o.y o.cholR)ᵀ)
      (obsY o.y)))

theorem obsL_pad (y : Fin ny → Option ℝ) (C : Matrix (Fin ny) (Fin ny) ℝ) (L : Matrix (Obs y) (Obs y) ℝ)
    (h1 : ∀ i j : Obs y, C i.1 j.1 = L i j) (h2 : ∀ (i : Obs y) j, y j = none → C i.1 j = 0) :
    obsL y C * (obsL y C)ᵀ = L * Lᵀ := by
  ext i j
  rw [Matrix.mul_apply, Matrix.mul_apply, ← sum_obs y _ fun k hk => by
    rw [obsL, Matrix.submatrix_apply, id, h2 i k hk, zero_mul]]
  exact Finset.sum_congr rfl fun k _ => by
    simp only [obsL, Matrix.submatrix_apply, id, Matrix.transpose_apply, h1]

theorem finiteObs_eq (H : Fin ny → Fin nx → Option ℝ) (d : Fin ny → Option ℝ) (C : NMat ny)
    (y : Fin ny → Option ℝ) (H' : Matrix (Fin ny) (Fin nx) ℝ) (d' : Fin ny → ℝ)
    (L : Matrix (Obs y) (Obs y) ℝ) (h1 : ∀ (i : Obs y) j, H i.1 j = some (H' i.1 j))
    (h2 : ∀ i : Obs y, d i.1 = some (d' i.1)) (h3 : ∀ i j : Obs y, C i.1 j.1 = some (L i j))
    (h4 : ∀ i j, i ≠ j → y i = none ∨ y j = none → C i j = some 0) :
    finiteObs H d C y = some ⟨Matrix.of fun i j => (H i j).getD 0, fun i => (d i).getD 0,
        Matrix.of fun i j => (C i j).getD 0, y⟩ ∧
      obsH y (Matrix.of fun i j => (H i j).getD 0) = obsH y H' ∧
      obsV y (fun i => (d i).getD 0) = obsV y d' ∧
      obsL y (Matrix.of fun i j => (C i j).getD 0) * (obsL y (Matrix.of fun i j => (C i j).getD 0))ᵀ =
        L * Lᵀ := by
  have hC : ∀ (i : Obs y) j, y j = none → C i.1 j = some 0 := fun i j hj =>
    h4 i.1 j (fun h => isNone_false.mp i.2 (h ▸ hj)) (Or.inr hj)
  have hCn : ∀ (i : Obs y) j, (C i.1 j).isNone = false := fun i j => by
    by_cases hj : y j = none
    · rw [hC i j hj]; rfl
    · rw [h3 i ⟨j, isNone_false.mpr hj⟩]; rfl
  refine ⟨if_pos fun i hi => ⟨fun j => by rw [h1 ⟨i, hi⟩]; rfl, by rw [h2 ⟨i, hi⟩]; rfl, hCn ⟨i, hi⟩⟩,
    ?_, ?_, ?_⟩
  · ext i j
    rw [obsH, obsH, Matrix.submatrix_apply, Matrix.submatrix_apply, Matrix.of_apply]
    simp only [id]
    rw [h1]; rfl
  · funext i
    simp only [obsV]
    rw [h2]; rfl
  · refine obsL_pad y _ L (fun i j => ?_) fun i j hj => ?_
    · rw [Matrix.of_apply, h3]; rfl
    · rw [Matrix.of_apply, hC i j hj]; rfl

theorem processDensity_eq (qr : QR) (svd : SVD) (rtol : ℝ) (hr : 0 ≤ rtol) (ign : Bool) (p : CondDensity nx ny)
    (x : Fin nx → ℝ) (y : Fin ny → Option ℝ) (H : Matrix (Fin ny) (Fin nx) ℝ)
    (d : Fin ny → ℝ) (R : Matrix (Fin ny) (Fin ny) ℝ) (ad : p.AD) (miss : ign = true ∨ ∀ i, y i ≠ none)
    (cond : WellConditioned rtol (R.submatrix Subtype.val Subtype.val : Matrix (Obs y) (Obs y) ℝ))
    (value : ∃ k, ∀ (x : Fin nx → ℝ) (z : Obs y → ℝ), p.value x (fillObs y z) =
      gaussLogDensity (obsH y H *ᵥ x + obsV y d) (R.submatrix Subtype.val Subtype.val) z + k) :
    ∃ H' d' C, processDensity qr svd rtol ign p (fun i => some (x i)) y = some ⟨H', d', C, y⟩ ∧
      obsH y H' = obsH y H ∧ obsV y d' = obsV y d ∧
      obsL y C * (obsL y C)ᵀ = R.submatrix Subtype.val Subtype.val := by
  obtain ⟨k, hk⟩ := value
  obtain ⟨L, h1, h2, h3, -, h5, -, h7⟩ := linearize_log_density_exact qr svd rtol hr ign p ad H d R x y miss
    cond k hk
  obtain ⟨ho, a1, a2, a3⟩ := finiteObs_eq _ _ _ y H d L h1 h2 h3 h7
  exact ⟨_, _, _, ho, a1, a2, a3.trans h5⟩

theorem processPotential_eq (qr : QR) (svd : SVD) (rtol : ℝ) (hr : 0 ≤ rtol) (ign : Bool) (p : Potential nx)
    (x : Fin nx → ℝ) (mask : Fin nx → Bool) (m : Obs (maskY mask) → ℝ)
    (P : Matrix (Obs (maskY mask)) (Obs (maskY mask)) ℝ) (ad : p.AD)
    (miss : ign = true ∨ ∀ i, mask i = true) (cond : WellConditioned rtol P)
    (value : ∃ k, ∀ x, p.value x = gaussLogDensity m P (fun i => x i.1) + k) :
    ∃ d' C, processPotential qr svd rtol ign p (fun i => some (x i)) =
        some ⟨Matrix.of fun i j => (-1 : Matrix (Fin nx) (Fin nx) ℝ) i j, d', C, maskY mask⟩ ∧
      obsV (maskY mask) d' = m ∧ obsL (maskY mask) C * (obsL (maskY mask) C)ᵀ = P := by
  obtain ⟨k, hk⟩ := value
  have hno : ∀ i, maskY mask i = none ↔ mask i = false := fun i => by
    unfold maskY; cases mask i <;> simp
  obtain ⟨L, -, h5, h2, h2', h3, h6, h7⟩ := linearize_taylor_exact qr svd rtol hr ign p ad x (maskY mask)
    (miss.imp id fun h i hi => by rw [hno, h i] at hi; cases hi) m P cond k hk
  obtain ⟨lt, hlt⟩ : ∃ lt, lt = linearizeTaylor qr svd rtol ign p fun i => some (x i) := ⟨_, rfl⟩
  have hy : (fun i => if (lt.2 i i).isNone && ign then none else some 0) = maskY mask := by
    funext i
    cases hm : mask i with
    | true =>
      have hi : (maskY mask i).isNone = false := by rw [isNone_false, Ne, hno, hm]; simp
      rw [hlt, h3 ⟨i, hi⟩ ⟨i, hi⟩]
      simp [maskY, hm]
    | false =>
      have hg : ign = true := miss.resolve_right fun h => by rw [h i] at hm; cases hm
      rw [hlt, h6 i ((hno i).mpr hm), hg]
      simp [maskY, hm]
  rw [← hlt] at h2 h2' h3 h6 h7
  obtain ⟨ho, a1, a2, a3⟩ := finiteObs_eq (fun i j => some ((-1 : Matrix (Fin nx) (Fin nx) ℝ) i j))
    lt.1 lt.2 (maskY mask) (-1) (fun i => (lt.1 i).getD 0) L (fun _ _ => rfl)
    (fun i => by rw [h2]; rfl) h3 h7
  refine ⟨fun i => (lt.1 i).getD 0, Matrix.of fun i j => (lt.2 i j).getD 0, ?_, ?_, a3.trans h5⟩
  · unfold processPotential
    rw [← hlt]
    simp only []
    rw [hy, ho]
    rfl
  · funext i
    simp only [obsV]
    rw [h2]; rfl

/-- The linearised observation represents the function by which the law is multiplied. -/
theorem ObservationIs.linearize {cb : TCallbacks nx ny Inp} {s : LState nx Inp} {u : Inp}
    {g : (Fin nx → ℝ) → ℝ≥0∞}
    (h : ObservationIs cb.rtol cb.ignoreNanDims (cb.getObservation s u) g) (qr : QR)
    (svd : SVD) (hr : 0 ≤ cb.rtol) :
    (∃ p x y o, cb.getObservation s u = .density p x y ∧
      processDensity qr svd cb.rtol cb.ignoreNanDims p x y = some o ∧ Represents o g) ∨
    (∃ p x o, cb.getObservation s u = .potential p x ∧
      processPotential qr svd cb.rtol cb.ignoreNanDims p x = some o ∧ Represents o g) := by
  obtain ⟨O, hO⟩ : ∃ O, O = cb.getObservation s u := ⟨_, rfl⟩
  rw [← hO] at h ⊢
  cases h with
  | density p x y H d R ad miss cond value =>
    obtain ⟨H', d', C, h0, h1, h2, h3⟩ := processDensity_eq qr svd _ hr _ p x y H d R ad miss cond value
    refine Or.inl ⟨_, _, _, _, rfl, h0, ?_⟩
    simp only [Represents, h1, h2, h3]
    exact ⟨cond.det_ne_zero, trivial⟩
  | potential p x mask m P ad miss cond value =>
    obtain ⟨d', C, h0, h2, h3⟩ := processPotential_eq qr svd _ hr _ p x mask m P ad miss cond value
    refine Or.inr ⟨_, _, _, rfl, h0, ?_⟩
    simp only [Represents, h2, h3]
    refine ⟨cond.det_ne_zero, funext fun x => ?_⟩
    congr 2
    have hH : obsH (maskY mask) (Matrix.of fun i j => (-1 : Matrix (Fin nx) (Fin nx) ℝ) i j) *ᵥ x =
        -fun i : Obs (maskY mask) => x i.1 := by
      funext i
      change ((-1 : Matrix (Fin nx) (Fin nx) ℝ) *ᵥ x) i.1 = _
      rw [Matrix.neg_mulVec, Matrix.one_mulVec]; rfl
    have hy : obsY (maskY mask) = 0 := by
      funext i
      simp only [obsY, maskY]
      split_ifs <;> rfl
    rw [hH, hy]
    unfold gaussLogDensity
    rw [zero_sub, neg_add, neg_neg, ← sub_eq_add_neg]

theorem IsGaussian.linearize {rtol : ℝ} {p : Potential nx} {m : Fin nx → ℝ} {P : Matrix (Fin nx) (Fin nx) ℝ}
    (h : IsGaussian rtol p m P) (qr : QR) (svd : SVD) (hr : 0 ≤ rtol) (cb : TCallbacks nx ny Inp) (u : Inp)
    (x : Fin nx → ℝ) (hrt : cb.rtol = rtol) (hcb : cb.getInit u = (p, fun i => some (x i))) :
    ∃ L, tInitParams qr svd cb u = some (m, L) ∧ IsLower L ∧ L * Lᵀ = P := by
  obtain ⟨k, hk⟩ := h.value
  obtain ⟨c', hc'⟩ := gaussLogDensity_quadForm (0 : Matrix (Fin nx) (Fin 0) ℝ) m P
  have hval : p.value = quadForm (0 : Matrix (Fin nx) (Fin 0) ℝ) m P⁻¹ (c' + k) 0 := by
    funext z
    have := hc' 0 z
    rw [Matrix.zero_mulVec, zero_add] at this
    rw [hk, this, quadForm, quadForm]; ring
  have hcd : ContDiff ℝ 2 p.value := by
    rw [hval]
    exact (contDiff_quadForm (0 : Matrix (Fin nx) (Fin 0) ℝ) m P⁻¹ (c' + k)).comp
      (contDiff_const.prodMk contDiff_id)
  have hdet := h.cond.det_ne_zero
  have hinv := h.cond.inv
  obtain ⟨L, l1, l2, l3, l4, l5, -, -⟩ := linearizeLogDensity_eq qr svd rtol hr cb.ignoreNanDims
    { value := fun _ y => p.value fun i => (y i).getD 0
      grad := fun _ y => p.grad y
      hess := fun _ y => p.hess y
      jac := fun _ _ _ _ => some 0 } x (fun i => some (x i)) (Or.inr fun i => by simp)
    (fun i => -(P⁻¹ *ᵥ (x - m)) i.1) 0 (P⁻¹.submatrix Subtype.val Subtype.val) (hinv.obs _)
    (fun i => by
      simp only []
      rw [h.ad.grad x hcd, hval, quadForm_grad hinv.1, Matrix.zero_mulVec, zero_add])
    (fun i j => rfl)
    (fun i j => by
      simp only []
      rw [h.ad.hess x hcd, hval, quadForm_hess hinv.1]
      rfl)
    (fun i hi => by cases hi)
  have hLP : (L * Lᵀ).submatrix (obsAll x) (obsAll x) = P := by
    have h2 := congrArg (fun M => M.submatrix (obsAll x) (obsAll x)) l2
    simp only [] at h2
    rw [← Matrix.submatrix_mul_equiv _ _ _ (obsAll x), Matrix.submatrix_one_equiv] at h2
    have h3 : (P⁻¹.submatrix Subtype.val Subtype.val : Matrix (Obs fun i => some (x i))
      (Obs fun i => some (x i)) ℝ).submatrix (obsAll x) (obsAll x) = P⁻¹ := rfl
    rw [h3] at h2
    have := Matrix.inv_eq_right_inv h2
    rw [← this, Matrix.nonsing_inv_nonsing_inv _ hdet.isUnit]
  refine ⟨L.submatrix (obsAll x) (obsAll x), ?_, fun i j hij => l1 _ _ hij, ?_⟩
  · unfold tInitParams
    rw [hcb, hrt]
    simp only []
    rw [finiteVec_some _ m, finite_some _ (L.submatrix (obsAll x) (obsAll x))]
    · rfl
    · intro i j
      exact l5 (obsAll x i) (obsAll x j)
    · intro i
      rw [show i = (obsAll x i).1 from rfl, l4]
      congr 1
      rw [Matrix.mul_zero, Matrix.zero_mulVec, sub_zero]
      have hv : ((L * Lᵀ) *ᵥ fun i : Obs (fun i => some (x i)) => -(P⁻¹ *ᵥ (x - m)) i.1) (obsAll x i) =
          (P *ᵥ -(P⁻¹ *ᵥ (x - m))) i := by
        have := mulVec_reindex (obsAll x) (L * Lᵀ)
          (fun i : Obs (fun i => some (x i)) => -(P⁻¹ *ᵥ (x - m)) i.1)
        rw [hLP] at this
        exact (congrFun this i).symm
      rw [Pi.add_apply, hv, Matrix.mulVec_neg, Matrix.mulVec_mulVec, Matrix.mul_nonsing_inv _ hdet.isUnit,
        Matrix.one_mulVec]
      change x i + -(x i - m i) = m i
      ring
  · rw [Matrix.transpose_submatrix, Matrix.submatrix_mul_equiv, hLP]

/-! ## The non-associative filter -/

theorem Holds.finite {s : LState nx Inp} {k : KF nx} (h : Holds s k) : s.Finite := by
  obtain ⟨L, hL, -⟩ := h.cov
  exact ⟨by rw [h.mean]; simp, by rw [hL]; simp, by rw [h.ell]; simp⟩

theorem predictState_finite (qr : QR) (D : Dummies nx) (s₁ : LState nx Inp) (hs : s₁.Finite) (u : Inp)
    (p : Matrix (Fin nx) (Fin nx) ℝ × (Fin nx → ℝ) × Matrix (Fin nx) (Fin nx) ℝ) :
    (predictState qr D s₁ u (some p)).Finite := by
  obtain ⟨h1, h2, h3⟩ := hs
  obtain ⟨m, hm⟩ := Option.ne_none_iff_exists'.mp h1
  obtain ⟨L, hL⟩ := Option.ne_none_iff_exists'.mp h2
  obtain ⟨l, hl⟩ := Option.ne_none_iff_exists'.mp h3
  have : predictState qr D s₁ u (some p) = dummyElem D (some (predict qr m L p.1 p.2.1 p.2.2).1)
      (predict qr m L p.1 p.2.1 p.2.2).2 (some l) u (some m) := by
    simp only [predictState, hm, hL, hl]
  rw [this]
  exact ⟨by rw [dummyElem_mean]; simp, by rw [dummyElem_cholCov]; simp, by rw [dummyElem_ell]; simp⟩

/-- One step of the non-associative filter is predict and update for the represented step. -/
theorem taylor_step (qr : QR) (svd : SVD) (D : Dummies nx) (cb : TCallbacks nx ny Inp) (hr : 0 ≤ cb.rtol)
    (s₁ s₂ : LState nx Inp) (k : KF nx) (hk : Holds s₁ k) (f : FKStep (Fin nx → ℝ))
    (hd : DynamicsIs cb.rtol (cb.getDynamics s₁ s₂.modelInputs) f.kernel) (g : (Fin nx → ℝ) → ℝ≥0∞)
    (hg : f.pot = fun _ => g) (ho : ∀ s : LState nx Inp, s.Finite →
      ObservationIs cb.rtol cb.ignoreNanDims (cb.getObservation s s₂.modelInputs) g) :
    ∃ (n' : ℕ) (st : Step nx n'), st.R.det ≠ 0 ∧ st.toFK = f ∧
      Holds (tCombineNonAssoc qr svd D cb s₁ s₂) (kfStep k st) := by
  obtain ⟨F, c, L, hdyn, hker, -⟩ := hd.linearize qr svd hr
  obtain ⟨pr, hpr⟩ : ∃ pr, pr = predictState qr D s₁ s₂.modelInputs (some (F, c, L)) := ⟨_, rfl⟩
  have hfin : pr.Finite := hpr ▸ predictState_finite qr D s₁ hk.finite _ _
  have hP : IsGram k.P := by
    obtain ⟨L, -, hL⟩ := hk.cov
    rw [← hL]; exact isGram_of _
  have key : ∀ (n' : ℕ) (o : ObsParams nx n'), Represents o g →
      ∃ (n' : ℕ) (st : Step nx n'), st.R.det ≠ 0 ∧ st.toFK = f ∧
        Holds (updateState qr D s₁ pr s₂.modelInputs (some o)) (kfStep k st) := by
    intro n' o hrep
    obtain ⟨st, hst⟩ : ∃ st : Step nx n', st = ⟨F, c, L, o.H, o.d, o.cholR, o.y⟩ := ⟨_, rfl⟩
    have hRst : st.R.det ≠ 0 := by rw [hst]; exact hrep.1
    have hlik : st.lik = g := by rw [hst, hrep.2]; rfl
    have hkst : (fun x => gauss (st.F *ᵥ x + st.c) st.cholQ) = f.kernel := by rw [hst, hker]
    refine ⟨n', st, hRst, ?_, ?_⟩
    · cases f with
      | mk kernel pot =>
        simp only at hg hkst
        rw [Step.toFK, hlik, hkst, hg]
    · rw [hpr, hst]
      exact (step_holds qr D s₁ s₂.modelInputs k hk ⟨F, c, L, o.H, o.d, o.cholR, o.y⟩
        (by
          have := innov_det_of_R st hRst (pred_gram hP st)
          rw [hst] at this
          exact this)).1
  rcases (ho pr hfin).linearize qr svd hr with ⟨p, x, y, o, h1, h2, h3⟩ | ⟨p, x, o, h1, h2, h3⟩
  · have heq : tCombineNonAssoc qr svd D cb s₁ s₂ = updateState qr D s₁ pr s₂.modelInputs (some o) := by
      unfold tCombineNonAssoc
      simp only [hdyn, ← hpr, h1, h2]
    rw [heq]
    exact key _ o h3
  · have heq : tCombineNonAssoc qr svd D cb s₁ s₂ = updateState qr D s₁ pr s₂.modelInputs (some o) := by
      unfold tCombineNonAssoc
      simp only [hdyn, ← hpr, h1, h2]
    rw [heq]
    exact key _ o h3

/-- **C38** (exactness). If the callbacks stand for a model with Gaussian initial law, Gaussian transitions
(or skipped predictions) and Gaussian observations or potentials (of some of the components), then the sequential
non-associative Taylor filter is exact, and none of its outputs is NaN: its state at `t` represents the law of
`x_t` weighted by the observation densities and potentials up to `t`, with the total weight as normalising
constant. A Gaussian potential acts by multiplication. -/
theorem taylor_non_associative_exact (qr : QR) (svd : SVD) (D : Dummies nx) (cb : TCallbacks nx ny Inp)
    (hr : 0 ≤ cb.rtol) (rng : Prng K) (u₀ : Inp) (us : List Inp) (key : Option K) (m0 : Fin nx → ℝ)
    (L0 : Matrix (Fin nx) (Fin nx) ℝ) (fk : Inp → FKStep (Fin nx → ℝ))
    (h : Represented cb u₀ us m0 (L0 * L0ᵀ) fk) :
    ∃ states, (filter rng (buildTaylorFilter qr svd D cb false) (u₀ :: us) false key).result = .ok states ∧
      states.length = us.length + 1 ∧
      ∀ t ≤ us.length, ∃ s m L l, states[t]? = some s ∧ s.mean = some m ∧ s.cholCov = some L ∧
        s.logNormalizingConstant = some l ∧
        ∀ φ : (Fin nx → ℝ) → ℝ≥0∞, Measurable φ →
          fkExp (gauss m0 L0) ((us.take t).map fk) (fun p => φ (p t)) =
            ENNReal.ofReal (Real.exp l) * ∫⁻ x, φ x ∂gauss m L := by
  obtain ⟨states, hst, hrun⟩ := filter_sequential_is_online_run rng
    (buildTaylorFilter (K := K) qr svd D cb false) (u₀ :: us) key (by simp)
  have main : ∀ t ≤ us.length, ∃ s k, states[t]? = some s ∧ Holds s k ∧
      ∀ L, L * Lᵀ = k.P → ∀ φ : (Fin nx → ℝ) → ℝ≥0∞, Measurable φ →
        fkExp (gauss m0 L0) ((us.take t).map fk) (fun p => φ (p t)) =
          ENNReal.ofReal (Real.exp k.l) * ∫⁻ x, φ x ∂gauss k.m L := by
    intro t
    induction t with
    | zero =>
      intro _
      obtain ⟨p, x, hp, hgau⟩ := h.init
      obtain ⟨L, hL, -, hLP⟩ := hgau.linearize qr svd hr cb u₀ x rfl hp
      have hini : (buildTaylorFilter (K := K) qr svd D cb false).initPrepare u₀
          (keyAt rng key (u₀ :: us).length 0) = dummyElem D (some m0) L (some 0) u₀ (some D.vec) := by
        change tInitNonAssoc qr svd D cb u₀ = _
        rw [tInitNonAssoc, hL]
      refine ⟨dummyElem D (some m0) L (some 0) u₀ (some D.vec), ⟨m0, L0 * L0ᵀ, 0⟩, (hrun.first u₀ rfl).trans (congrArg some ?_),
        ⟨rfl, ⟨L, rfl, hLP⟩, rfl⟩, fun L' hL' φ _ => ?_⟩
      · exact hini
      · rw [Real.exp_zero, ENNReal.ofReal_one, one_mul, gauss_eq_of_gram _ L' L0 hL']
        rfl
    | succ t ih =>
      intro ht
      have htl : t < us.length := ht
      have hut : us[t]? = some us[t] := List.getElem?_eq_getElem htl
      have hmem : us[t] ∈ us := List.getElem_mem htl
      obtain ⟨s, k, hs, hh, hex⟩ := ih htl.le
      obtain ⟨L, hL, hLP⟩ := id hh.cov
      obtain ⟨g, hg, ho⟩ := h.observation _ hmem
      obtain ⟨n', st, h1, h2, h3⟩ := taylor_step qr svd D cb hr s (prepareNonAssoc D us[t]) k hh (fk us[t])
        (h.dynamics _ hmem s hh.finite) g hg ho
      have hst := hrun.step t us[t] s (by simp) hs
      refine ⟨_, kfStep k st, hst, h3, fun L' hL' φ hφ => ?_⟩
      have htake : (us.take (t + 1)).map fk = (us.take t).map fk ++ [st.toFK] := by
        rw [List.take_add_one, hut, List.map_append, h2]; rfl
      have hlen : ((us.take t).map fk).length = t := by simp [htl.le]
      have := step_exact k st h1 L L' hLP hL' (gauss m0 L0) ((us.take t).map fk)
        (fun φ hφ => by rw [hlen]; exact hex L hLP φ hφ) φ hφ
      rw [hlen] at this
      rw [htake, this]
  refine ⟨states, hst, by simpa using hrun.length_eq, fun t ht => ?_⟩
  obtain ⟨s, k, hs, hh, hex⟩ := main t ht
  obtain ⟨L, hL, hLP⟩ := hh.cov
  exact ⟨s, k.m, L, k.l, hs, hh.mean, hL, hh.ell, hex L hLP⟩

/-! ## The associative filter -/

theorem taylor_associative_eq (qr : QR) (svd : SVD) (D : Dummies nx) (cb : TCallbacks nx ny Inp)
    (lin : Callbacks nx n Inp) (rng : Prng K) (u₀ : Inp) (us : List Inp) (parallel : Bool) (key : Option K)
    (hi : tInitParams qr svd cb u₀ = some (lin.getInit u₀))
    (hp : ∀ u ∈ us, (tPrepareAssoc qr svd D cb u).elem = (filterPrepare qr lin u).elem) :
    (filter rng (buildTaylorFilter qr svd D cb true) (u₀ :: us) parallel key).result.map
        (List.map LState.toFilter) =
      (filter rng (buildFilter qr lin) (u₀ :: us) parallel key).result := by
  refine filter_map_on rng LState.toFilter _ _ (u₀ :: us) (fun u k hu => ?_) (fun u hu k => ?_)
    (fun _ _ => rfl) parallel key
  · obtain rfl : u₀ = u := by simpa using hu
    change (tInitAssoc qr svd D cb u₀).toFilter = initPrepare lin u₀
    rw [tInitAssoc, hi]
    rfl
  · change FilterState.mk _ _ = FilterState.mk _ _
    exact congrArg (fun e => FilterState.mk e u) (hp u hu)

theorem dummyState_finite (D : Dummies nx) (u : Inp) : (dummyState D u).Finite :=
  ⟨by simp [dummyState, LState.mean, LState.toFilter, FilterState.mean],
   by simp [dummyState, LState.cholCov, LState.toFilter, FilterState.cholCov],
   by simp [dummyState, LState.logNormalizingConstant, LState.toFilter, FilterState.logNormalizingConstant]⟩

/-- For one input: the parameters of the linear-Gaussian step that the associative filter uses. -/
theorem taylor_assoc_step (qr : QR) (svd : SVD) (D : Dummies nx) (cb : TCallbacks nx ny Inp)
    (hr : 0 ≤ cb.rtol) (u : Inp) (f : FKStep (Fin nx → ℝ))
    (hd : DynamicsIs cb.rtol (cb.getDynamics (dummyState D u) u) f.kernel) (g : (Fin nx → ℝ) → ℝ≥0∞)
    (hg : f.pot = fun _ => g)
    (ho : ObservationIs cb.rtol cb.ignoreNanDims (cb.getObservation (dummyState D u) u) g) :
    ∃ st : Step nx (match cb.getObservation (dummyState D u) u with | .density _ _ _ => ny | .potential _ _ => nx),
      st.R.det ≠ 0 ∧ st.toFK = f ∧
      ((st.cholQ * st.cholQᵀ).det ≠ 0 ∨ st.F.det ≠ 0 ∧ f.kernel = Measure.dirac) ∧
      (tPrepareAssoc qr svd D cb u).elem =
        filterParams qr st.F st.c st.cholQ st.H st.d st.cholR st.y := by
  obtain ⟨F, c, L, hdyn, hker, hns⟩ := hd.linearize qr svd hr
  have key : ∀ (n' : ℕ) (o : ObsParams nx n'), Represents o g →
      ∃ st : Step nx n', st.R.det ≠ 0 ∧ st.toFK = f ∧
        ((st.cholQ * st.cholQᵀ).det ≠ 0 ∨ st.F.det ≠ 0 ∧ f.kernel = Measure.dirac) ∧
        st = ⟨F, c, L, o.H, o.d, o.cholR, o.y⟩ := by
    intro n' o hrep
    obtain ⟨st, hst⟩ : ∃ st : Step nx n', st = ⟨F, c, L, o.H, o.d, o.cholR, o.y⟩ := ⟨_, rfl⟩
    have hRst : st.R.det ≠ 0 := by rw [hst]; exact hrep.1
    have hlik : st.lik = g := by rw [hst, hrep.2]; rfl
    have hkst : (fun x => gauss (st.F *ᵥ x + st.c) st.cholQ) = f.kernel := by rw [hst, hker]
    refine ⟨st, hRst, ?_, by rw [hst]; exact hns, hst⟩
    cases f with
    | mk kernel pot =>
      simp only at hg hkst
      rw [Step.toFK, hlik, hkst, hg]
  rcases ho.linearize qr svd hr with ⟨p, x, y, o, h1, h2, h3⟩ | ⟨p, x, o, h1, h2, h3⟩
  · obtain ⟨st, a1, a2, a3, a4⟩ := key _ o h3
    rw [h1]
    refine ⟨st, a1, a2, a3, ?_⟩
    unfold tPrepareAssoc
    simp only [hdyn, h1, h2, Option.bind_some]
    rw [a4]
  · obtain ⟨st, a1, a2, a3, a4⟩ := key _ o h3
    rw [h1]
    refine ⟨st, a1, a2, a3, ?_⟩
    unfold tPrepareAssoc
    simp only [hdyn, h1, h2, Option.bind_some]
    rw [a4]

/-- The callbacks return conditional densities at all times, or potentials at all times. (They are traced once
for all times.) -/
def Homogeneous (cb : TCallbacks nx ny Inp) (us : List Inp) : Prop :=
  (∀ u ∈ us, ∀ s, ∃ p x y, cb.getObservation s u = .density p x y) ∨
  (∀ u ∈ us, ∀ s, ∃ p x, cb.getObservation s u = .potential p x)

/-- **C38** (associative filter, exactness). Under the same conditions the associative Taylor filter returns in
both modes the exact filtering means and covariances. Its log normalising constant is the exact one wherever it
is not NaN, and it is not NaN in the sequential mode, nor in the parallel mode if no prediction is skipped. -/
theorem taylor_associative_exact (qr : QR) (svd : SVD) (D : Dummies nx) (cb : TCallbacks nx ny Inp)
    (hr : 0 ≤ cb.rtol) (rng : Prng K) (u₀ : Inp) (us : List Inp) (parallel : Bool) (key : Option K)
    (m0 : Fin nx → ℝ) (L0 : Matrix (Fin nx) (Fin nx) ℝ) (fk : Inp → FKStep (Fin nx → ℝ))
    (h : Represented cb u₀ us m0 (L0 * L0ᵀ) fk) (hom : Homogeneous cb us) :
    ∃ states, (filter rng (buildTaylorFilter qr svd D cb true) (u₀ :: us) parallel key).result = .ok states ∧
      states.length = us.length + 1 ∧
      ∀ t ≤ us.length, ∃ s m L l, states[t]? = some s ∧ s.mean = some m ∧ s.cholCov = some L ∧
        (∀ φ : (Fin nx → ℝ) → ℝ≥0∞, Measurable φ →
          fkExp (gauss m0 L0) ((us.take t).map fk) (fun p => φ (p t)) =
            ENNReal.ofReal (Real.exp l) * ∫⁻ x, φ x ∂gauss m L) ∧
        (∀ l', s.logNormalizingConstant = some l' → l' = l) ∧
        (parallel = false ∨ (∀ u ∈ us, (fk u).kernel ≠ Measure.dirac) →
          s.logNormalizingConstant = some l) := by
  classical
  obtain ⟨p, x, hp, hgau⟩ := h.init
  obtain ⟨L, hL, hlow, hLP⟩ := hgau.linearize qr svd hr cb u₀ x rfl hp
  -- the steps, of a common observation dimension
  obtain ⟨n', hn'⟩ : ∃ n' : ℕ, ∀ u ∈ us, ∃ st : Step nx n', st.R.det ≠ 0 ∧ st.toFK = fk u ∧
      ((st.cholQ * st.cholQᵀ).det ≠ 0 ∨ st.F.det ≠ 0 ∧ (fk u).kernel = Measure.dirac) ∧
      (tPrepareAssoc qr svd D cb u).elem =
        filterParams qr st.F st.c st.cholQ st.H st.d st.cholR st.y := by
    rcases hom with hom | hom
    · refine ⟨ny, fun u hu => ?_⟩
      obtain ⟨g, hg, ho⟩ := h.observation u hu
      have := taylor_assoc_step qr svd D cb hr u (fk u) (h.dynamics u hu _ (dummyState_finite D u)) g hg
        (ho _ (dummyState_finite D u))
      obtain ⟨p, x, y, he⟩ := hom u hu (dummyState D u)
      rw [he] at this
      exact this
    · refine ⟨nx, fun u hu => ?_⟩
      obtain ⟨g, hg, ho⟩ := h.observation u hu
      have := taylor_assoc_step qr svd D cb hr u (fk u) (h.dynamics u hu _ (dummyState_finite D u)) g hg
        (ho _ (dummyState_finite D u))
      obtain ⟨p, x, he⟩ := hom u hu (dummyState D u)
      rw [he] at this
      exact this
  have hch : ∀ u, ∃ st : Step nx n', u ∈ us → st.R.det ≠ 0 ∧ st.toFK = fk u ∧
      ((st.cholQ * st.cholQᵀ).det ≠ 0 ∨ st.F.det ≠ 0 ∧ (fk u).kernel = Measure.dirac) ∧
      (tPrepareAssoc qr svd D cb u).elem =
        filterParams qr st.F st.c st.cholQ st.H st.d st.cholR st.y := by
    intro u
    by_cases hu : u ∈ us
    · obtain ⟨st, hst⟩ := hn' u hu
      exact ⟨st, fun _ => hst⟩
    · exact ⟨⟨0, 0, 0, 0, 0, 0, fun _ => none⟩, fun h => absurd h hu⟩
  choose st hst using hch
  obtain ⟨lin, hlin⟩ : ∃ lin : Callbacks nx n' Inp, lin =
    { getInit := fun _ => (m0, L)
      getDynamics := fun u => ((st u).F, (st u).c, (st u).cholQ)
      getObservation := fun u => ((st u).H, (st u).d, (st u).cholR, (st u).y) } := ⟨_, rfl⟩
  have hso : ∀ u, stepOf lin u = st u := fun u => by rw [hlin]; rfl
  have hin : lin.getInit u₀ = (m0, L) := by rw [hlin]
  have heq := taylor_associative_eq qr svd D cb lin rng u₀ us parallel key (by rw [hL, hin]) fun u hu => by
    rw [(hst u hu).2.2.2, hlin]; rfl
  obtain ⟨states', h2, hlen, hk⟩ := kalman_filter_exact qr rng lin u₀ us parallel key
    fun u hu => by rw [hso]; exact (hst u hu).1
  rw [← heq] at h2
  cases hres : (filter rng (buildTaylorFilter qr svd D cb true) (u₀ :: us) parallel key).result with
  | error e => rw [hres] at h2; cases h2
  | ok sts =>
    rw [hres] at h2
    simp only [Except.map, Except.ok.injEq] at h2
    refine ⟨sts, rfl, by rw [← hlen, ← h2, List.length_map], fun t ht => ?_⟩
    obtain ⟨s', m, L', l, hs', hm, hL', hφ, hf⟩ := hk t ht
    rw [← h2, List.getElem?_map, Option.map_eq_some_iff] at hs'
    obtain ⟨s, hs, rfl⟩ := hs'
    have hf' := hf (by rw [hin]; exact hlow)
    refine ⟨s, m, L', l, hs, hm, hL', fun φ hm' => ?_, hf'.1, fun hc => hf'.2 ?_ fun u hu => ?_⟩
    · rw [← hφ φ hm', hin, jointExp_eq_fk, List.map_map, gauss_eq_of_gram m0 L L0 hLP]
      congr 1
      refine List.map_congr_left fun u hu => ?_
      rw [Function.comp_apply, hso, (hst u (List.mem_of_mem_take hu)).2.1]
    · rw [hin]
      refine hlow.diag_ne_zero_iff_gram.mpr ?_
      rw [hLP]
      exact hgau.cond.det_ne_zero
    · rw [hso]
      rcases (hst u hu).2.2.1 with h1 | ⟨h1, h3⟩
      · exact Or.inr h1
      · rcases hc with hc | hc
        · exact Or.inl ⟨hc, h1⟩
        · exact absurd h3 (hc u hu)

/-! ## Agreement with the Kalman filter -/

/-- **C38** (Kalman). If what the callbacks stand for is the linear-Gaussian model `lg`, then both variants of the
Taylor filter, the associative one in both modes, return the means and covariances of the Kalman filter in
either mode, and the same log-likelihoods wherever neither is NaN. -/
theorem taylor_is_kalman (qr qr' : QR) (svd : SVD) (D : Dummies nx) (cb : TCallbacks nx ny Inp)
    (hr : 0 ≤ cb.rtol) (rng : Prng K) (u₀ : Inp) (us : List Inp) (associative parallel parallel' : Bool)
    (hpar : associative = true ∨ parallel = false) (key key' : Option K) (lg : Callbacks nx n Inp)
    (h : Represented cb u₀ us (lg.getInit u₀).1 ((lg.getInit u₀).2 * ((lg.getInit u₀).2)ᵀ)
      fun u => (stepOf lg u).toFK) (hom : Homogeneous cb us)
    (hR : ∀ u ∈ us, (stepOf lg u).R.det ≠ 0) (hlow : IsLower (lg.getInit u₀).2) :
    ∃ states states',
      (filter rng (buildTaylorFilter qr svd D cb associative) (u₀ :: us) parallel key).result = .ok states ∧
      (filter rng (buildFilter qr' lg) (u₀ :: us) parallel' key').result = .ok states' ∧
      states.length = us.length + 1 ∧ states'.length = us.length + 1 ∧
      ∀ (t : ℕ) s s', states[t]? = some s → states'[t]? = some s' →
        ∃ m L L', s.mean = some m ∧ s'.mean = some m ∧ s.cholCov = some L ∧ s'.cholCov = some L' ∧
          L * Lᵀ = L' * L'ᵀ ∧ ∀ l l', s.logNormalizingConstant = some l →
            s'.logNormalizingConstant = some l' → l = l' := by
  obtain ⟨states', hst', hlen', hk⟩ := kalman_filter_exact qr' rng lg u₀ us parallel' key' hR
  have ht : ∃ states, (filter rng (buildTaylorFilter qr svd D cb associative) (u₀ :: us) parallel key).result =
      .ok states ∧ states.length = us.length + 1 ∧
      ∀ t ≤ us.length, ∃ s m L l, states[t]? = some s ∧ s.mean = some m ∧ s.cholCov = some L ∧
        (∀ φ : (Fin nx → ℝ) → ℝ≥0∞, Measurable φ →
          fkExp (gauss (lg.getInit u₀).1 (lg.getInit u₀).2) ((us.take t).map fun u => (stepOf lg u).toFK)
            (fun p => φ (p t)) = ENNReal.ofReal (Real.exp l) * ∫⁻ x, φ x ∂gauss m L) ∧
        (∀ l', s.logNormalizingConstant = some l' → l' = l) := by
    cases associative with
    | true =>
      obtain ⟨states, h1, h2, h3⟩ := taylor_associative_exact qr svd D cb hr rng u₀ us parallel key _ _ _ h hom
      refine ⟨states, h1, h2, fun t ht => ?_⟩
      obtain ⟨s, m, L, l, a1, a2, a3, a4, a5, -⟩ := h3 t ht
      exact ⟨s, m, L, l, a1, a2, a3, a4, a5⟩
    | false =>
      obtain rfl : parallel = false := hpar.resolve_left (by simp)
      obtain ⟨states, h1, h2, h3⟩ := taylor_non_associative_exact qr svd D cb hr rng u₀ us key _ _ _ h
      refine ⟨states, h1, h2, fun t ht => ?_⟩
      obtain ⟨s, m, L, l, a1, a2, a3, a4, a5⟩ := h3 t ht
      exact ⟨s, m, L, l, a1, a2, a3, a5, fun l' hl' => by rw [a4] at hl'; exact (Option.some.inj hl').symm⟩
  obtain ⟨states, hst, hlen, hT⟩ := ht
  refine ⟨states, states', hst, hst', hlen, hlen', fun t s s' hs hs' => ?_⟩
  have ht : t ≤ us.length := by
    have := (List.getElem?_eq_some_iff.mp hs).1
    omega
  obtain ⟨s₁, m, L, l, h1, hm, hL, hφ, hl⟩ := hT t ht
  obtain ⟨s₂, m', L', l', h1', hm', hL', hφ', hf⟩ := hk t ht
  rw [hs, Option.some.injEq] at h1
  rw [hs', Option.some.injEq] at h1'
  subst h1 h1'
  obtain ⟨e1, e2, e3⟩ := weighted_gauss_injective (m := m) (m' := m') (L := L) (M := L') (l := l) (l' := l')
    fun φ hm => by
      rw [← hφ φ hm, ← hφ' φ hm, jointExp_eq_fk, List.map_map]; rfl
  subst e1 e2
  exact ⟨m, L, L', hm, hm', hL, hL', e3, fun a b ha hb => by rw [hl a ha, (hf hlow).1 b hb]⟩

/-! ## The hypotheses can be met -/

/-- For every linear-Gaussian model with well-conditioned covariances, any missing observations and any choice of
linearisation points there are callbacks that stand for it. -/
theorem exists_represented (lg : Callbacks nx ny Inp) (rtol : ℝ)
    (hP : ∀ u, WellConditioned rtol ((lg.getInit u).2 * ((lg.getInit u).2)ᵀ))
    (hQ : ∀ u, WellConditioned rtol ((lg.getDynamics u).2.2 * ((lg.getDynamics u).2.2)ᵀ))
    (hR : ∀ u, WellConditioned rtol ((lg.getObservation u).2.2.1 * ((lg.getObservation u).2.2.1)ᵀ))
    (pts : LState nx Inp → Inp → Fin 4 → Fin nx → ℝ) :
    ∃ cb : TCallbacks nx ny Inp, cb.rtol = rtol ∧
      (∀ s u, (cb.getDynamics s u).2 = (fun i => some (pts s u 0 i), fun i => some (pts s u 1 i))) ∧
      (∀ s u, ∃ p y, cb.getObservation s u = .density p (fun i => some (pts s u 2 i)) y) ∧
      ∀ u₀ us, Represented cb u₀ us (lg.getInit u₀).1 ((lg.getInit u₀).2 * ((lg.getInit u₀).2)ᵀ)
        (fun u => (stepOf lg u).toFK) ∧ Homogeneous cb us := by
  choose pi hpi hpiAD using fun u => exists_potential (n := nx) fun x =>
    gaussLogDensity (lg.getInit u).1 ((lg.getInit u).2 * ((lg.getInit u).2)ᵀ) x + 1
  choose pd hpdAD hpd using fun u => exists_gaussian_condDensity (lg.getDynamics u).1 (lg.getDynamics u).2.1
    ((lg.getDynamics u).2.2 * ((lg.getDynamics u).2.2)ᵀ)
  choose po hpoAD hpo using fun u => exists_gaussian_condDensity (lg.getObservation u).1
    (lg.getObservation u).2.1 ((lg.getObservation u).2.2.1 * ((lg.getObservation u).2.2.1)ᵀ)
  refine ⟨{ getInit := fun u => (pi u, fun i => some ((lg.getInit u).1 i))
            getDynamics := fun s u => (pd u, fun i => some (pts s u 0 i), fun i => some (pts s u 1 i))
            getObservation := fun s u => .density (po u) (fun i => some (pts s u 2 i))
              (lg.getObservation u).2.2.2
            rtol := rtol
            ignoreNanDims := true }, rfl, fun _ _ => rfl, fun s u => ⟨_, _, rfl⟩, fun u₀ us =>
    ⟨⟨⟨_, _, rfl, hpiAD _, hP _, 1, fun x => by rw [hpi]⟩, fun u _ s _ => ?_, fun u _ => ?_⟩,
      Or.inl fun u _ s => ⟨_, _, _, rfl⟩⟩⟩
  · refine DynamicsIs.transition _ _ _ _ _ _ ⟨hpdAD u, hQ u, 0, fun x z => ?_⟩
    have h1 := hpd u (fun i => some (z i)) x (fun i => z i.1)
    have h2 : fillObs (fun i => some (z i)) (fun i : Obs (fun i => some (z i)) => z i.1) =
        fun i => some (z i) := by
      funext i; simp [fillObs]
    rw [h2] at h1
    rw [h1, ← gaussLogDensity_reindex (obsAll z)]; rfl
  · refine ⟨(stepOf lg u).lik, rfl, fun s _ => ?_⟩
    have h1 := ObservationIs.density (rtol := rtol) (ign := true) (po u) (pts s u 2)
      (lg.getObservation u).2.2.2 (lg.getObservation u).1
      (lg.getObservation u).2.1 ((lg.getObservation u).2.2.1 * ((lg.getObservation u).2.2.1)ᵀ) (hpoAD u)
      (Or.inl rfl) ((hR u).obs _) ⟨0, fun x z => hpo u _ x z⟩
    rw [← obsL_gram] at h1
    exact h1

/-- Non-vacuity for potentials: one step with a correlated Gaussian potential of two components and a
skipped prediction. -/
theorem exists_skip_model (m : Fin 2 → ℝ) : ∃ (cb : TCallbacks 2 0 Unit) (fk : Unit → FKStep (Fin 2 → ℝ)),
    cb.rtol = 1 / 10 ∧ Represented cb () [()] 0 1 fk ∧ Homogeneous cb [()] ∧
    (fk ()).pot = (fun _ x => ENNReal.ofReal (Real.exp (gaussLogDensity m !![2, 1; 1, 2] x))) ∧
    (fk ()).kernel = Measure.dirac ∧ ∀ s, ∃ p, cb.getDynamics s () = (p, fun _ => none, fun _ => none) := by
  obtain ⟨pi, hpi, hpiAD⟩ := exists_potential (n := 2) fun x => gaussLogDensity 0 1 x + 0
  obtain ⟨pd, hpdAD, -⟩ := exists_gaussian_condDensity (nx := 2) (ny := 2) 0 0 1
  obtain ⟨pp, hpp, hppAD⟩ := exists_potential (n := 2) fun x => gaussLogDensity m !![2, 1; 1, 2] x + 3
  refine ⟨{ getInit := fun _ => (pi, fun _ => some 7)
            getDynamics := fun _ _ => (pd, fun _ => none, fun _ => none)
            getObservation := fun s _ => .potential pp fun i => some ((s.mean.getD 0) i)
            rtol := 1 / 10
            ignoreNanDims := false }, fun _ => ⟨Measure.dirac, fun _ x => ENNReal.ofReal (Real.exp
              (gaussLogDensity m !![2, 1; 1, 2] x))⟩, rfl,
    ⟨⟨pi, fun _ => 7, rfl, hpiAD, ⟨Matrix.isSymm_one, 1, 1, one_pos, by norm_num, fun x => by simp⟩, 0,
      fun x => by rw [hpi]⟩, fun _ _ _ _ => DynamicsIs.skip _, fun _ _ => ⟨_, rfl, fun s _ => ?_⟩⟩,
    Or.inr fun _ _ _ => ⟨_, _, rfl⟩, rfl, rfl, fun _ => ⟨_, rfl⟩⟩
  let e : Fin 2 ≃ Obs (maskY fun _ : Fin 2 => true) := ⟨fun i => ⟨i, rfl⟩, fun i => i.1, fun _ => rfl, fun _ => rfl⟩
  have hw : WellConditioned (1 / 10) (!![2, 1; 1, 2] : Matrix (Fin 2) (Fin 2) ℝ) := by
    refine ⟨?_, 1, 3, one_pos, by norm_num, fun x => ?_⟩
    · ext i j; fin_cases i <;> fin_cases j <;> rfl
    · simp [dotProduct, mulVec, Fin.sum_univ_two]
      constructor <;> nlinarith [sq_nonneg (x 0 + x 1), sq_nonneg (x 0 - x 1)]
  have hval : ∀ x : Fin 2 → ℝ, gaussLogDensity m !![2, 1; 1, 2] x =
      gaussLogDensity (fun i : Obs (maskY fun _ : Fin 2 => true) => m i.1)
        (!![2, 1; 1, 2].submatrix Subtype.val Subtype.val) (fun i => x i.1) := fun x => by
    rw [← gaussLogDensity_reindex e]; rfl
  have := ObservationIs.potential (nx := 2) (ny := 0) (rtol := 1 / 10) (ign := false) pp (s.mean.getD 0)
    (fun _ => true)
    (fun i => m i.1) (!![2, 1; 1, 2].submatrix Subtype.val Subtype.val) hppAD (Or.inr fun _ => rfl)
    (hw.obs _) ⟨3, fun x => by rw [hpp]; exact congrArg (· + 3) (hval x)⟩
  simpa only [← hval] using this

end

end Cuthbert.Linearize
