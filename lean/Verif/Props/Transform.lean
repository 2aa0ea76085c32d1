import Verif.Lemmas.GaussInj
import Verif.Lemmas.KalmanReindex
import Verif.Props.KalmanSmoother
import Verif.Spec.Transform

/-!
# The Kalman filter and smoother are equivariant under changes of coordinates (C80)
-/

namespace Cuthbert.Kalman
open MeasureTheory Matrix Cuthbert Cuthbert.Spec
open scoped ENNReal

noncomputable section

variable {nx ny nx' ny' : ℕ} {Inp Inp' K K' : Type}

/-! ## Laws -/

theorem lintegral_gauss_map {T : Matrix (Fin nx') (Fin nx) ℝ} {b : Fin nx' → ℝ} {m : Fin nx → ℝ}
    {L : Matrix (Fin nx) (Fin nx) ℝ} {m' : Fin nx' → ℝ} {L' : Matrix (Fin nx') (Fin nx') ℝ} (hm : m' = T *ᵥ m + b)
    (hL : L' * L'ᵀ = T * (L * Lᵀ) * Tᵀ) {f : (Fin nx' → ℝ) → ℝ≥0∞} (hf : Measurable f) :
    ∫⁻ x, f x ∂gauss m' L' = ∫⁻ x, f (T *ᵥ x + b) ∂gauss m L := by
  have h : gauss m' L' = gauss (T *ᵥ m + b) (T * L) := by
    rw [hm]
    refine gauss_eq_of_gram _ _ _ ?_
    rw [hL, Matrix.transpose_mul]
    simp only [Matrix.mul_assoc]
  have hT : Measurable fun y : Fin nx → ℝ => T *ᵥ y + b := (measurable_mulVec T).add measurable_const
  rw [h, ← gauss_map_affine, lintegral_map hf hT]

theorem pathExp_map {T : Matrix (Fin nx') (Fin nx) ℝ} {b : Fin nx' → ℝ} :
    ∀ (ss : List (Step nx ny)) (ss' : List (Step nx' ny')) (κ : ℕ → ℝ) (_ : ss.length = ss'.length)
      (_ : ∀ t s s', ss[t]? = some s → ss'[t]? = some s' → StepMap T b (κ t) s s')
      (f : (ℕ → Fin nx' → ℝ) → ℝ≥0∞) (_ : Measurable f) (x : Fin nx → ℝ),
      pathExp ss' f (T *ᵥ x + b) =
        ENNReal.ofReal (∏ t ∈ Finset.range ss.length, κ t) * pathExp ss (fun p => f fun t => T *ᵥ p t + b) x
  | [], [], κ, _, _, f, _, x => by simp [pathExp]
  | s :: ss, s' :: ss', κ, hl, h, f, hf, x => by
    have h0 := h 0 s s' rfl rfl
    have hp : ∀ x' : Fin nx → ℝ, Measurable fun p => f (pathCons (T *ᵥ x + b) p) := fun x' =>
      hf.comp (measurable_pathCons measurable_const measurable_id)
    have hpm : 0 ≤ ∏ t ∈ Finset.range ss.length, κ (t + 1) := Finset.prod_nonneg fun t ht => by
      rw [Finset.mem_range] at ht
      have hl' : ss.length = ss'.length := by simpa using hl
      exact (h (t + 1) ss[t] ss'[t] (by simp) (by simp)).pos.le
    have hT : Measurable fun y : Fin nx → ℝ => T *ᵥ y + b := (measurable_mulVec T).add measurable_const
    have hf' : Measurable fun p : ℕ → Fin nx → ℝ => f fun t => T *ᵥ p t + b :=
      hf.comp (measurable_pi_lambda _ fun t => hT.comp (measurable_pi_apply t))
    have hmean : s'.F *ᵥ (T *ᵥ x + b) + s'.c = T *ᵥ (s.F *ᵥ x + s.c) + b := by
      rw [Matrix.mulVec_add, Matrix.mulVec_mulVec, h0.F, ← Matrix.mulVec_mulVec, Matrix.mulVec_add, add_assoc, h0.c,
        add_assoc]
    have hmeas : Measurable fun x' => s'.lik x' * pathExp ss' (fun p => f (pathCons (T *ᵥ x + b) p)) x' :=
      (Step.measurable_lik s').mul (measurable_pathExp' ss' (hp x))
    rw [pathExp, pathExp, lintegral_gauss_map hmean h0.Q hmeas]
    · have ih : ∀ x' : Fin nx → ℝ, s'.lik (T *ᵥ x' + b) *
          pathExp ss' (fun p => f (pathCons (T *ᵥ x + b) p)) (T *ᵥ x' + b) =
          ENNReal.ofReal (∏ t ∈ Finset.range (s :: ss).length, κ t) *
            (s.lik x' * pathExp ss (fun p => f fun t => T *ᵥ (pathCons x p) t + b) x') := by
        intro x'
        have e := pathExp_map ss ss' (fun t => κ (t + 1)) (by simpa using hl)
          (fun t s s' h1 h2 => h (t + 1) s s' (by simpa using h1) (by simpa using h2)) _ (hp x') x'
        have e2 : (fun p : ℕ → Fin nx → ℝ => f (pathCons (T *ᵥ x + b) fun t => T *ᵥ p t + b)) =
            fun p => f fun t => T *ᵥ (pathCons x p) t + b := by
          funext p
          congr 1
          funext t
          cases t <;> rfl
        rw [e, e2, h0.lik, List.length_cons, Finset.prod_range_succ', mul_comm _ (κ 0),
          ENNReal.ofReal_mul h0.pos.le]
        ring
      simp_rw [ih]
      rw [lintegral_const_mul]
      exact s.measurable_lik.mul (measurable_pathExp' ss
        (hf'.comp (measurable_pathCons measurable_const measurable_id)))

/-- What the two models have in common. -/
structure ModelMap (T : Matrix (Fin nx') (Fin nx) ℝ) (b : Fin nx' → ℝ) (κ : ℕ → ℝ) (cb : Callbacks nx ny Inp)
    (cb' : Callbacks nx' ny' Inp') (u₀ : Inp) (us : List Inp) (u₀' : Inp') (us' : List Inp') : Prop where
  length : us.length = us'.length
  m0 : (cb'.getInit u₀').1 = T *ᵥ (cb.getInit u₀).1 + b
  P0 : (cb'.getInit u₀').2 * ((cb'.getInit u₀').2)ᵀ = T * ((cb.getInit u₀).2 * ((cb.getInit u₀).2)ᵀ) * Tᵀ
  step : ∀ (t : ℕ) u u', us[t]? = some u → us'[t]? = some u' → StepMap T b (κ t) (stepOf cb u) (stepOf cb' u')

variable {T : Matrix (Fin nx') (Fin nx) ℝ} {b : Fin nx' → ℝ} {κ : ℕ → ℝ} {cb : Callbacks nx ny Inp}
  {cb' : Callbacks nx' ny' Inp'} {u₀ : Inp} {us : List Inp} {u₀' : Inp'} {us' : List Inp'}

theorem ModelMap.pos (h : ModelMap T b κ cb cb' u₀ us u₀' us') {t : ℕ} (ht : t < us.length) : 0 < κ t := by
  have := h.length
  exact (h.step t us[t] us'[t] (List.getElem?_eq_getElem ht) (List.getElem?_eq_getElem (by omega))).pos

theorem ModelMap.jointExp (h : ModelMap T b κ cb cb' u₀ us u₀' us') {t : ℕ} (ht : t ≤ us.length)
    {f : (ℕ → Fin nx' → ℝ) → ℝ≥0∞} (hf : Measurable f) :
    jointExp (cb'.getInit u₀').1 (cb'.getInit u₀').2 ((us'.take t).map (stepOf cb')) f =
      ENNReal.ofReal (∏ i ∈ Finset.range t, κ i) *
        jointExp (cb.getInit u₀).1 (cb.getInit u₀).2 ((us.take t).map (stepOf cb))
          (fun p => f fun i => T *ᵥ p i + b) := by
  have hl := h.length
  have hT : Measurable fun y : Fin nx → ℝ => T *ᵥ y + b := (measurable_mulVec T).add measurable_const
  have hf' : Measurable fun p : ℕ → Fin nx → ℝ => f fun t => T *ᵥ p t + b :=
    hf.comp (measurable_pi_lambda _ fun t => hT.comp (measurable_pi_apply t))
  rw [Cuthbert.jointExp, Cuthbert.jointExp, lintegral_gauss_map h.m0 h.P0 (measurable_pathExp' _ hf),
    ← lintegral_const_mul _ (measurable_pathExp' _ hf')]
  refine lintegral_congr fun x => ?_
  rw [pathExp_map ((us.take t).map (stepOf cb)) ((us'.take t).map (stepOf cb')) κ (by simp [hl]) ?_ f hf x]
  · rw [List.length_map, List.length_take, min_eq_left ht]
  · intro i s s' hs hs'
    rw [List.getElem?_map, Option.map_eq_some_iff] at hs hs'
    obtain ⟨u, hu, rfl⟩ := hs
    obtain ⟨u', hu', rfl⟩ := hs'
    rw [List.getElem?_take] at hu hu'
    split_ifs at hu hu'
    exact h.step i u u' hu hu'

/-- The law of the mapped state. -/
theorem mapped_law (hpos : ∀ i < us.length, 0 < κ i) {t : ℕ} (ht : t ≤ us.length) {m : Fin nx → ℝ}
    {L : Matrix (Fin nx) (Fin nx) ℝ} {m' : Fin nx' → ℝ} {L' : Matrix (Fin nx') (Fin nx') ℝ} {l l' : ℝ}
    (h : ∀ φ : (Fin nx' → ℝ) → ℝ≥0∞, Measurable φ → ENNReal.ofReal (Real.exp l') * ∫⁻ x, φ x ∂gauss m' L' =
      ENNReal.ofReal (∏ i ∈ Finset.range t, κ i) * (ENNReal.ofReal (Real.exp l) *
        ∫⁻ x, φ (T *ᵥ x + b) ∂gauss m L)) :
    l' = l + ∑ i ∈ Finset.range t, Real.log (κ i) ∧ m' = T *ᵥ m + b ∧ L' * L'ᵀ = T * (L * Lᵀ) * Tᵀ := by
  have hp : ∀ i ∈ Finset.range t, 0 < κ i := fun i hi => hpos i (by rw [Finset.mem_range] at hi; omega)
  have hprod : Real.exp (l + ∑ i ∈ Finset.range t, Real.log (κ i)) = (∏ i ∈ Finset.range t, κ i) * Real.exp l := by
    rw [Real.exp_add, Real.exp_sum, mul_comm]
    congr 1
    exact Finset.prod_congr rfl fun i hi => Real.exp_log (hp i hi)
  obtain ⟨h1, h2, h3⟩ := weighted_gauss_injective (m := m') (m' := T *ᵥ m + b) (L := L') (M := T * L) (l := l')
    (l' := l + ∑ i ∈ Finset.range t, Real.log (κ i)) fun φ hφ => by
      have hT : Measurable fun y : Fin nx → ℝ => T *ᵥ y + b := (measurable_mulVec T).add measurable_const
      rw [h φ hφ, ← gauss_map_affine, lintegral_map hφ hT, hprod,
        ENNReal.ofReal_mul (Finset.prod_nonneg fun i hi => (hp i hi).le), mul_assoc]
  refine ⟨h1, h2, ?_⟩
  rw [h3, Matrix.transpose_mul]
  simp only [Matrix.mul_assoc]

/-! ## C80 -/

/-- **C80**, filter. If a model is mapped to another by `x ↦ T x + b` then so are the means and covariances that the
filter returns, and the log normalising constants differ by the logarithms of the constants. -/
theorem filter_equivariant (h : ModelMap T b κ cb cb' u₀ us u₀' us') (qr qr' : QR) (rng : Prng K) (rng' : Prng K')
    (parallel parallel' : Bool) (key : Option K) (key' : Option K')
    (hR : ∀ u ∈ us, (stepOf cb u).R.det ≠ 0) (hR' : ∀ u ∈ us', (stepOf cb' u).R.det ≠ 0) :
    ∃ (states : List (FilterState nx Inp)) (states' : List (FilterState nx' Inp')),
      (filter rng (buildFilter qr cb) (u₀ :: us) parallel key).result = .ok states ∧
      (filter rng' (buildFilter qr' cb') (u₀' :: us') parallel' key').result = .ok states' ∧
      ∀ t ≤ us.length, ∃ s s' m m' L L', states[t]? = some s ∧ states'[t]? = some s' ∧ s.mean = some m ∧
        s'.mean = some m' ∧ s.cholCov = some L ∧ s'.cholCov = some L' ∧
        m' = T *ᵥ m + b ∧ L' * L'ᵀ = T * (L * Lᵀ) * Tᵀ ∧
        (IsLower (cb.getInit u₀).2 → IsLower (cb'.getInit u₀').2 → ∀ l l', s.logNormalizingConstant = some l →
          s'.logNormalizingConstant = some l' → l' = l + ∑ i ∈ Finset.range t, Real.log (κ i)) := by
  obtain ⟨states, h1, h2, h3⟩ := kalman_filter_exact qr rng cb u₀ us parallel key hR
  obtain ⟨states', h1', h2', h3'⟩ := kalman_filter_exact qr' rng' cb' u₀' us' parallel' key' hR'
  refine ⟨states, states', h1, h1', fun t ht => ?_⟩
  obtain ⟨s, m, L, l, h4, h5, h6, h7, h8⟩ := h3 t ht
  obtain ⟨s', m', L', l', h4', h5', h6', h7', h8'⟩ := h3' t (by have := h.length; omega)
  obtain ⟨e1, e2, e3⟩ := mapped_law (T := T) (b := b) (κ := κ) (us := us) (fun i hi => h.pos hi) ht (m := m) (L := L)
    (m' := m') (L' := L') (l := l) (l' := l') fun φ hφ => by
      have hT : Measurable fun y : Fin nx → ℝ => T *ᵥ y + b := (measurable_mulVec T).add measurable_const
      rw [← h7' φ hφ, h.jointExp ht (f := fun p => φ (p t)) (hφ.comp (measurable_pi_apply t)),
        ← h7 (fun x => φ (T *ᵥ x + b)) (hφ.comp hT)]
  refine ⟨s, s', m, m', L, L', h4, h4', h5, h5', h6, h6', e2, e3, fun hl hl' v v' hv hv' => ?_⟩
  rw [(h8 hl).1 v hv, (h8' hl').1 v' hv']
  exact e1

/-- **C80**, smoother. -/
theorem smoother_equivariant (h : ModelMap T b κ cb cb' u₀ us u₀' us') (hus : us ≠ []) (qr qr' : QR)
    (rng rng₁ : Prng K) (rng' rng₁' : Prng K') (parallel parallel₁ parallel' parallel₁' : Bool) (key key₁ : Option K)
    (key' key₁' : Option K') (opts : SmootherOpts nx Inp) (opts' : SmootherOpts nx' Inp')
    (hR : ∀ u ∈ us, (stepOf cb u).R.det ≠ 0) (hR' : ∀ u ∈ us', (stepOf cb' u).R.det ≠ 0)
    {filterStates : List (FilterState nx Inp)} {filterStates' : List (FilterState nx' Inp')}
    (hf : (filter rng (buildFilter qr cb) (u₀ :: us) parallel key).result = .ok filterStates)
    (hf' : (filter rng' (buildFilter qr' cb') (u₀' :: us') parallel' key').result = .ok filterStates')
    (hP : ∀ (t : ℕ) s L u, filterStates[t]? = some s → s.cholCov = some L → us[t]? = some u →
      ((stepOf cb u).F * (L * Lᵀ) * ((stepOf cb u).F)ᵀ +
        (stepOf cb u).cholQ * ((stepOf cb u).cholQ)ᵀ).det ≠ 0)
    (hP' : ∀ (t : ℕ) s L u, filterStates'[t]? = some s → s.cholCov = some L → us'[t]? = some u →
      ((stepOf cb' u).F * (L * Lᵀ) * ((stepOf cb' u).F)ᵀ +
        (stepOf cb' u).cholQ * ((stepOf cb' u).cholQ)ᵀ).det ≠ 0) :
    ∃ (states : List (SmootherState nx Inp)) (states' : List (SmootherState nx' Inp')),
      (smoother rng₁ FilterState.modelInputs (fun u => .ok (opts.dummy u))
        (buildSmoother qr cb.getDynamics opts) filterStates none parallel₁ key₁).result = .ok states ∧
      (smoother rng₁' FilterState.modelInputs (fun u => .ok (opts'.dummy u))
        (buildSmoother qr' cb'.getDynamics opts') filterStates' none parallel₁' key₁').result = .ok states' ∧
      ∀ t ≤ us.length, ∃ s s' m m' L L', states[t]? = some s ∧ states'[t]? = some s' ∧ s.mean = some m ∧
        s'.mean = some m' ∧ s.cholCov = some L ∧ s'.cholCov = some L' ∧
        m' = T *ᵥ m + b ∧ L' * L'ᵀ = T * (L * Lᵀ) * Tᵀ := by
  have hlen := h.length
  have hus' : us' ≠ [] := fun h0 => hus (List.length_eq_zero_iff.mp (by rw [hlen, h0]; rfl))
  obtain ⟨states, l, h1, h2, h3, -⟩ := kalman_smoother_exact qr rng rng₁ cb u₀ us hus parallel parallel₁ key key₁ opts hR
    filterStates hf hP none (.inl rfl)
  obtain ⟨states', l', h1', h2', h3', -⟩ := kalman_smoother_exact qr' rng' rng₁' cb' u₀' us' hus' parallel' parallel₁'
    key' key₁' opts' hR' filterStates' hf' hP' none (.inl rfl)
  refine ⟨states, states', h1, h1', fun t ht => ?_⟩
  obtain ⟨s, m, L, h4, h5, h6, h7⟩ := h3 t ht
  obtain ⟨s', m', L', h4', h5', h6', h7'⟩ := h3' t (by omega)
  obtain ⟨-, e2, e3⟩ := mapped_law (T := T) (b := b) (κ := κ) (us := us) (fun i hi => h.pos hi) le_rfl (m := m) (L := L)
    (m' := m') (L' := L') (l := l) (l' := l') fun φ hφ => by
      have hT : Measurable fun y : Fin nx → ℝ => T *ᵥ y + b := (measurable_mulVec T).add measurable_const
      have e := h.jointExp le_rfl (f := fun p => φ (p t)) (hφ.comp (measurable_pi_apply t))
      rw [hlen, List.take_length, ← hlen, List.take_length] at e
      rw [← h7' φ hφ, e, ← h7 (fun x => φ (T *ᵥ x + b)) (hφ.comp hT)]
  exact ⟨s, s', m, m', L, L', h4, h4', h5, h5', h6, h6', e2, e3⟩

/-! ## Instances -/

/-- A change of coordinates of the state (`T` need not be square: the new state may also be a part of the old one on
which everything depends). -/
theorem stepMap_state (T : Matrix (Fin nx') (Fin nx) ℝ) (b : Fin nx' → ℝ) {s : Step nx ny} {s' : Step nx' ny}
    (hF : s'.F * T = T * s.F) (hc : s'.F *ᵥ b + s'.c = T *ᵥ s.c + b)
    (hQ : s'.cholQ * s'.cholQᵀ = T * (s.cholQ * s.cholQᵀ) * Tᵀ) (hH : s'.H * T = s.H) (hd : s'.H *ᵥ b + s'.d = s.d)
    (hR : s'.cholR = s.cholR) (hy : s'.y = s.y) : StepMap T b 1 s s' := by
  refine ⟨hF, hc, hQ, one_pos, fun x => ?_⟩
  obtain ⟨F, c, cholQ, H, d, cholR, y⟩ := s
  obtain ⟨F', c', cholQ', H', d', cholR', y'⟩ := s'
  dsimp only at hH hd hR hy
  subst hR hy
  rw [ENNReal.ofReal_one, one_mul, Step.lik, Step.lik]
  have e : obsH y' H' *ᵥ (T *ᵥ x + b) + obsV y' d' = obsH y' H *ᵥ x + obsV y' d := by
    funext i
    have e1 := congrFun (congrArg (· *ᵥ x) hH) i.1
    have e2 := congrFun hd i.1
    simp only [← Matrix.mulVec_mulVec] at e1
    have e3 : (H' *ᵥ (T *ᵥ x + b) + d') i.1 = (H *ᵥ x + d) i.1 := by
      rw [Matrix.mulVec_add, Pi.add_apply, Pi.add_apply, Pi.add_apply, ← e1, ← e2, Pi.add_apply, add_assoc]
    exact e3
  dsimp only
  rw [e]
  rfl

theorem gaussLogDensity_reindex {ι ο : Type*} [Fintype ι] [DecidableEq ι] [Fintype ο] [DecidableEq ο] (e : ο ≃ ι)
    (m y : ι → ℝ) (S : Matrix ι ι ℝ) : gaussLogDensity (m ∘ e) (S.submatrix e e) (y ∘ e) = gaussLogDensity m S y := by
  have h : y ∘ e - m ∘ e = (y - m) ∘ e := rfl
  rw [gaussLogDensity, gaussLogDensity, h, Matrix.inv_submatrix_equiv, mulVec_reindex, Matrix.det_submatrix_equiv_self,
    Fintype.card_congr e, comp_equiv_dotProduct_comp_equiv]

/-- Reordering the components of the observation, missing ones included. -/
theorem stepMap_permute (σ : Equiv.Perm (Fin ny)) (s : Step nx ny) :
    StepMap 1 0 1 s { s with H := s.H.submatrix σ id, d := s.d ∘ σ, cholR := s.cholR.submatrix σ id, y := s.y ∘ σ } := by
  refine ⟨by simp, by simp, by simp, one_pos, fun x => ?_⟩
  rw [ENNReal.ofReal_one, one_mul, Step.lik, Step.lik, Matrix.one_mulVec, add_zero]
  let e : Obs (s.y ∘ σ) ≃ Obs s.y :=
    ⟨fun i => ⟨σ i.1, i.2⟩, fun i => ⟨σ.symm i.1, by simpa using i.2⟩, fun i => by simp, fun i => by simp⟩
  exact congrArg (fun r => ENNReal.ofReal (Real.exp r))
    (gaussLogDensity_reindex e (obsH s.y s.H *ᵥ x + obsV s.y s.d) (obsY s.y) s.R)

theorem gaussLogDensity_linear {ι : Type*} [Fintype ι] [DecidableEq ι] (A : Matrix ι ι ℝ) (hA : A.det ≠ 0)
    (m y : ι → ℝ) (S : Matrix ι ι ℝ) (hS : S.det ≠ 0) :
    gaussLogDensity (A *ᵥ m) (A * S * Aᵀ) (A *ᵥ y) = gaussLogDensity m S y - Real.log |A.det| := by
  have hu : IsUnit A.det := isUnit_iff_ne_zero.mpr hA
  have hut : IsUnit Aᵀ.det := by rwa [Matrix.det_transpose]
  rw [gaussLogDensity, gaussLogDensity, ← Matrix.mulVec_sub, Matrix.mul_inv_rev, Matrix.mul_inv_rev,
    Matrix.mulVec_mulVec, Matrix.mul_assoc, Matrix.mul_assoc S⁻¹, Matrix.nonsing_inv_mul _ hu, Matrix.mul_one,
    Matrix.dotProduct_mulVec, Matrix.vecMul_mulVec]
  have e : Aᵀ * ((Aᵀ)⁻¹ * S⁻¹) = S⁻¹ := by
    rw [← Matrix.mul_assoc, Matrix.mul_nonsing_inv _ hut, Matrix.one_mul]
  have e2 : Real.log (A * S * Aᵀ).det = Real.log S.det + 2 * Real.log |A.det| := by
    rw [Matrix.det_mul, Matrix.det_mul, Matrix.det_transpose, mul_right_comm, mul_comm,
      Real.log_mul hS (mul_ne_zero hA hA), Real.log_mul hA hA, Real.log_abs]
    ring
  rw [e, e2, ← Matrix.dotProduct_mulVec]
  ring

/-- All components observed. -/
def allObs (v : Fin ny → ℝ) : Fin ny ≃ Obs (fun i => some (v i)) :=
  ⟨fun i => ⟨i, rfl⟩, fun i => i.1, fun _ => rfl, fun _ => rfl⟩

/-- An invertible linear map of a fully observed observation, in which log normalising constants change by the
logarithm of its determinant. -/
theorem stepMap_observation (A : Matrix (Fin ny) (Fin ny) ℝ) (hA : A.det ≠ 0) (v : Fin ny → ℝ) (s : Step nx ny)
    (hy : s.y = fun i => some (v i)) (hR : s.R.det ≠ 0) :
    StepMap 1 0 |A.det|⁻¹ s { s with
      H := A * s.H, d := A *ᵥ s.d, cholR := A * s.cholR, y := fun i => some ((A *ᵥ v) i) } := by
  refine ⟨by simp, by simp, by simp, inv_pos.mpr (abs_pos.mpr hA), fun x => ?_⟩
  obtain ⟨F, c, cholQ, H, d, cholR, y⟩ := s
  dsimp only at hy
  subst hy
  have hR' : (cholR * cholRᵀ).det ≠ 0 := by
    have e : (Step.R ⟨F, c, cholQ, H, d, cholR, fun i => some (v i)⟩).submatrix (allObs v) (allObs v) =
        cholR * cholRᵀ := rfl
    rw [← e, Matrix.det_submatrix_equiv_self]
    exact hR
  have key : ∀ (H : Matrix (Fin ny) (Fin nx) ℝ) (d v : Fin ny → ℝ) (cholR : Matrix (Fin ny) (Fin ny) ℝ),
      Step.lik ⟨F, c, cholQ, H, d, cholR, fun i => some (v i)⟩ x =
        ENNReal.ofReal (Real.exp (gaussLogDensity (H *ᵥ x + d) (cholR * cholRᵀ) v)) := fun H d v cholR =>
    congrArg (fun r => ENNReal.ofReal (Real.exp r)) (gaussLogDensity_reindex (allObs v)
      (obsH (fun i => some (v i)) H *ᵥ x + obsV _ d) (obsY fun i => some (v i))
      (Step.R ⟨F, c, cholQ, H, d, cholR, fun i => some (v i)⟩)).symm
  have e1 : (A * H) *ᵥ x + A *ᵥ d = A *ᵥ (H *ᵥ x + d) := by rw [Matrix.mulVec_add, Matrix.mulVec_mulVec]
  have e2 : A * cholR * (A * cholR)ᵀ = A * (cholR * cholRᵀ) * Aᵀ := by
    rw [Matrix.transpose_mul]
    simp only [Matrix.mul_assoc]
  rw [Matrix.one_mulVec, add_zero, key, key, e1, e2, gaussLogDensity_linear A hA _ _ _ hR', Real.exp_sub,
    Real.exp_log (abs_pos.mpr hA), div_eq_inv_mul, ENNReal.ofReal_mul (inv_nonneg.mpr (abs_nonneg _))]

/-- Non-vacuity: the random walk with velocity in the coordinates `(x, v) ↦ (2 x + 3, x + v)`, the position observed
once with noise. -/
example : ∃ (cb cb' : Callbacks 2 1 ℕ), ModelMap !![2, 0; 1, 1] ![3, 0] (fun _ => 1) cb cb' 0 [1] 0 [1] ∧
    (stepOf cb 1).F = !![1, 1; 0, 1] ∧ (∀ u ∈ [1], (stepOf cb u).R.det ≠ 0) ∧
    ∀ u ∈ [1], (stepOf cb' u).R.det ≠ 0 := by
  refine ⟨⟨fun _ => (0, 1), fun _ => (!![1, 1; 0, 1], 0, 1), fun _ => (!![1, 0], 0, 1, ![some 5])⟩,
    ⟨fun _ => (![3, 0], !![2, 0; 1, 1]), fun _ => (!![0, 2; -1 / 2, 2], ![3, 3 / 2], !![2, 0; 1, 1]),
      fun _ => (!![1 / 2, 0], ![-3 / 2], 1, ![some 5])⟩, ⟨rfl, ?_, ?_, ?_⟩, rfl, ?_, ?_⟩
  · simp
  · simp
  · intro t u u' hu hu'
    refine stepMap_state _ _ ?_ ?_ ?_ ?_ ?_ rfl rfl
    · ext i j; fin_cases i <;> fin_cases j <;> norm_num [stepOf, Matrix.mul_apply, Fin.sum_univ_two]
    · ext i; fin_cases i <;> norm_num [stepOf, Matrix.mulVec, dotProduct, Fin.sum_univ_two]
    · simp [stepOf]
    · ext i j; fin_cases i; fin_cases j <;> norm_num [stepOf, Matrix.mul_apply, Fin.sum_univ_two]
    · ext i; fin_cases i; norm_num [stepOf, Matrix.mulVec, dotProduct, Fin.sum_univ_two]
  · exact fun u _ => obsR_det _ _ (by simp [stepOf])
  · exact fun u _ => obsR_det _ _ (by simp [stepOf])

end

end Cuthbert.Kalman
