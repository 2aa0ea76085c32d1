import Verif.Spec.Sufficient
import Verif.Props.Grid
import Verif.Lemmas.Linearize
import Mathlib.LinearAlgebra.Matrix.Rank

/-!
# Observations matter only through their information (C144)
-/

namespace Cuthbert.Kalman
open MeasureTheory Matrix Cuthbert Cuthbert.Spec
open scoped ENNReal

noncomputable section

variable {nx ny ny' : ℕ} {Inp Inp' K K' : Type}

theorem log_lik_information (s : Step nx ny) (x : Fin nx → ℝ) :
    gaussLogDensity (obsH s.y s.H *ᵥ x + obsV s.y s.d) s.R (obsY s.y) =
      logDensityAtZero s + x ⬝ᵥ infoVector s - 1 / 2 * (x ⬝ᵥ infoMatrix s *ᵥ x) := by
  have hR : (s.R⁻¹)ᵀ = s.R⁻¹ := by rw [Matrix.transpose_nonsing_inv, s.R_gram.symm]
  obtain ⟨e, he⟩ : ∃ e, e = obsY s.y - obsV s.y s.d := ⟨_, rfl⟩
  obtain ⟨h, hh⟩ : ∃ h, h = obsH s.y s.H *ᵥ x := ⟨_, rfl⟩
  have e1 : obsY s.y - (obsH s.y s.H *ᵥ x + obsV s.y s.d) = e - h := by rw [he, hh]; abel
  have e2 : x ⬝ᵥ infoVector s = h ⬝ᵥ s.R⁻¹ *ᵥ e := by
    rw [infoVector, ← he, hh, Matrix.dotProduct_mulVec, Matrix.vecMul_transpose]
  have e3 : x ⬝ᵥ infoMatrix s *ᵥ x = h ⬝ᵥ s.R⁻¹ *ᵥ h := by
    rw [infoMatrix, ← Matrix.mulVec_mulVec, ← hh, ← Matrix.mulVec_mulVec, hh, Matrix.dotProduct_mulVec,
      Matrix.vecMul_transpose]
  have e4 : e ⬝ᵥ s.R⁻¹ *ᵥ h = h ⬝ᵥ s.R⁻¹ *ᵥ e := by
    rw [Matrix.dotProduct_mulVec, ← Matrix.mulVec_transpose, hR, dotProduct_comm]
  rw [logDensityAtZero, gaussLogDensity, gaussLogDensity, e1, ← he, e2, e3, Matrix.mulVec_sub, sub_dotProduct,
    dotProduct_sub, dotProduct_sub, e4]
  ring

/-- With the same information the likelihoods are proportional. -/
theorem lik_of_sameInformation {s : Step nx ny} {s' : Step nx ny'} (h : SameInformation s s') (x : Fin nx → ℝ) :
    s'.lik x = ENNReal.ofReal (Real.exp (logDensityAtZero s' - logDensityAtZero s)) * s.lik x := by
  rw [Step.lik, Step.lik, log_lik_information, log_lik_information, h.matrix, h.vector,
    ← ENNReal.ofReal_mul (Real.exp_nonneg _), ← Real.exp_add]
  congr 2
  ring

theorem pathExp_sameInformation : ∀ (ss : List (Step nx ny)) (ss' : List (Step nx ny')),
    List.Forall₂ SameInformation ss ss' → ∀ (f : (ℕ → Fin nx → ℝ) → ℝ≥0∞) (x : Fin nx → ℝ), pathExp ss' f x =
      ENNReal.ofReal (Real.exp ((ss'.map logDensityAtZero).sum - (ss.map logDensityAtZero).sum)) * pathExp ss f x
  | [], _, .nil, f, x => by simp [pathExp]
  | s :: ss, s' :: ss', .cons h hs, f, x => by
    rw [pathExp, pathExp, h.F, h.c, gauss_eq_of_gram _ _ _ h.Q, ← lintegral_const_mul' _ _ ENNReal.ofReal_ne_top]
    refine lintegral_congr fun x' => ?_
    rw [lik_of_sameInformation h, pathExp_sameInformation ss ss' hs]
    rw [List.map_cons, List.map_cons, List.sum_cons, List.sum_cons, show
      logDensityAtZero s' + (ss'.map logDensityAtZero).sum - (logDensityAtZero s + (ss.map logDensityAtZero).sum) =
        (logDensityAtZero s' - logDensityAtZero s) +
          ((ss'.map logDensityAtZero).sum - (ss.map logDensityAtZero).sum) by ring, Real.exp_add,
      ENNReal.ofReal_mul (Real.exp_nonneg _)]
    ring

/-- The inputs of two models which contribute the same information about the state in each step. -/
structure SameInformationRun (cb : Callbacks nx ny Inp) (cb' : Callbacks nx ny' Inp') (u₀ : Inp) (us : List Inp)
    (u₀' : Inp') (us' : List Inp') : Prop where
  m0 : (cb'.getInit u₀').1 = (cb.getInit u₀).1
  P0 : (cb'.getInit u₀').2 * ((cb'.getInit u₀').2)ᵀ = (cb.getInit u₀).2 * ((cb.getInit u₀).2)ᵀ
  step : List.Forall₂ (fun u u' => SameInformation (stepOf cb u) (stepOf cb' u')) us us'

variable {cb : Callbacks nx ny Inp} {cb' : Callbacks nx ny' Inp'} {u₀ : Inp} {us : List Inp} {u₀' : Inp'}
  {us' : List Inp'}

theorem SameInformationRun.jointExp (h : SameInformationRun cb cb' u₀ us u₀' us') (t : ℕ)
    (f : (ℕ → Fin nx → ℝ) → ℝ≥0∞) :
    jointExp (cb'.getInit u₀').1 (cb'.getInit u₀').2 ((us'.take t).map (stepOf cb')) f =
      ENNReal.ofReal (Real.exp (((us'.take t).map fun u => logDensityAtZero (stepOf cb' u)).sum -
          ((us.take t).map fun u => logDensityAtZero (stepOf cb u)).sum)) *
        jointExp (cb.getInit u₀).1 (cb.getInit u₀).2 ((us.take t).map (stepOf cb)) f := by
  have hs : List.Forall₂ SameInformation ((us.take t).map (stepOf cb)) ((us'.take t).map (stepOf cb')) := by
    rw [List.forall₂_map_left_iff, List.forall₂_map_right_iff]; exact List.forall₂_take t h.step
  have e := pathExp_sameInformation _ _ hs f
  simp only [List.map_map, Function.comp_def] at e
  rw [Cuthbert.jointExp, Cuthbert.jointExp, h.m0, gauss_eq_of_gram _ _ _ h.P0,
    ← lintegral_const_mul' _ _ ENNReal.ofReal_ne_top]
  exact lintegral_congr e

/-- **C144** (filter). Observations of any number and kind that contribute the same information give the same means and
covariances. The log normalising constants differ by the difference of the log densities of the observations at state zero,
which does not depend on the dynamics. -/
theorem filter_sameInformation (h : SameInformationRun cb cb' u₀ us u₀' us') (qr qr' : QR) (rng : Prng K) (rng' : Prng K')
    (parallel parallel' : Bool) (key : Option K) (key' : Option K')
    (hR : ∀ u ∈ us, (stepOf cb u).R.det ≠ 0) (hR' : ∀ u ∈ us', (stepOf cb' u).R.det ≠ 0) :
    ∃ (states : List (FilterState nx Inp)) (states' : List (FilterState nx Inp')),
      (filter rng (buildFilter qr cb) (u₀ :: us) parallel key).result = .ok states ∧
      (filter rng' (buildFilter qr' cb') (u₀' :: us') parallel' key').result = .ok states' ∧
      ∀ t ≤ us.length, ∃ s s' m L L', states[t]? = some s ∧ states'[t]? = some s' ∧
        s.mean = some m ∧ s'.mean = some m ∧ s.cholCov = some L ∧ s'.cholCov = some L' ∧ L' * L'ᵀ = L * Lᵀ ∧
        (IsLower (cb.getInit u₀).2 → IsLower (cb'.getInit u₀').2 → ∀ l l', s.logNormalizingConstant = some l →
          s'.logNormalizingConstant = some l' →
          l' - l = ((us'.take t).map fun u => logDensityAtZero (stepOf cb' u)).sum -
            ((us.take t).map fun u => logDensityAtZero (stepOf cb u)).sum) := by
  have hlen : us'.length = us.length := h.step.length_eq.symm
  obtain ⟨states, h1, h2, h3⟩ := kalman_filter_exact qr rng cb u₀ us parallel key hR
  obtain ⟨states', h1', h2', h3'⟩ := kalman_filter_exact qr' rng' cb' u₀' us' parallel' key' hR'
  refine ⟨states, states', h1, h1', fun t ht => ?_⟩
  obtain ⟨s, m, L, l, h4, h5, h6, h7, h8⟩ := h3 t ht
  obtain ⟨s', m', L', l', h4', h5', h6', h7', h8'⟩ := h3' t (by omega)
  obtain ⟨e1, e2, e3⟩ := weighted_gauss_injective (m := m') (m' := m) (L := L') (M := L) (l := l')
    (l' := ((us'.take t).map fun u => logDensityAtZero (stepOf cb' u)).sum -
            ((us.take t).map fun u => logDensityAtZero (stepOf cb u)).sum + l) fun φ hφ => by
    rw [← h7' φ hφ, h.jointExp t, h7 φ hφ, Real.exp_add, ENNReal.ofReal_mul (Real.exp_nonneg _), mul_assoc]
  subst e2
  refine ⟨s, s', m', L, L', h4, h4', h5, h5', h6, h6', e3, fun hl hl' v v' hv hv' => ?_⟩
  rw [(h8 hl).1 v hv, (h8' hl').1 v' hv', e1]
  ring

/-- **C144** (smoother). -/
theorem smoother_sameInformation (h : SameInformationRun cb cb' u₀ us u₀' us') (hus : us ≠ [])
    (qr qr' : QR) (rng rng₁ : Prng K) (rng' rng₁' : Prng K') (parallel parallel₁ parallel' parallel₁' : Bool)
    (key key₁ : Option K) (key' key₁' : Option K') (opts : SmootherOpts nx Inp) (opts' : SmootherOpts nx Inp')
    (hR : ∀ u ∈ us, (stepOf cb u).R.det ≠ 0) (hR' : ∀ u ∈ us', (stepOf cb' u).R.det ≠ 0)
    {fs : List (FilterState nx Inp)} {fs' : List (FilterState nx Inp')}
    (hf : (filter rng (buildFilter qr cb) (u₀ :: us) parallel key).result = .ok fs)
    (hf' : (filter rng' (buildFilter qr' cb') (u₀' :: us') parallel' key').result = .ok fs')
    (hP : ∀ (t : ℕ) s L u, fs[t]? = some s → s.cholCov = some L → us[t]? = some u →
      ((stepOf cb u).F * (L * Lᵀ) * ((stepOf cb u).F)ᵀ +
        (stepOf cb u).cholQ * ((stepOf cb u).cholQ)ᵀ).det ≠ 0) :
    ∃ (states : List (SmootherState nx Inp)) (states' : List (SmootherState nx Inp')),
      (smoother rng₁ FilterState.modelInputs (fun u => .ok (opts.dummy u))
        (buildSmoother qr cb.getDynamics opts) fs none parallel₁ key₁).result = .ok states ∧
      (smoother rng₁' FilterState.modelInputs (fun u => .ok (opts'.dummy u))
        (buildSmoother qr' cb'.getDynamics opts') fs' none parallel₁' key₁').result = .ok states' ∧
      ∀ t ≤ us.length, ∃ s s' m L L', states[t]? = some s ∧ states'[t]? = some s' ∧
        s.mean = some m ∧ s'.mean = some m ∧ s.cholCov = some L ∧ s'.cholCov = some L' ∧ L' * L'ᵀ = L * Lᵀ := by
  have hlen : us'.length = us.length := h.step.length_eq.symm
  have hP' : ∀ (t : ℕ) s L u, fs'[t]? = some s → s.cholCov = some L → us'[t]? = some u →
      ((stepOf cb' u).F * (L * Lᵀ) * ((stepOf cb' u).F)ᵀ +
        (stepOf cb' u).cholQ * ((stepOf cb' u).cholQ)ᵀ).det ≠ 0 := by
    intro t s' L' u' hs' hL' hu'
    obtain ⟨fs₁, fs₁', g1, g2, g3⟩ := filter_sameInformation h qr qr' rng rng' parallel parallel' key key' hR hR'
    obtain rfl : fs₁ = fs := Except.ok.inj (g1.symm.trans hf)
    obtain rfl : fs₁' = fs' := Except.ok.inj (g2.symm.trans hf')
    have ht : t < us.length := hlen ▸ (List.getElem?_eq_some_iff.1 hu').1
    obtain ⟨s, s₁', m, L, L₁', k1, k2, -, -, k3, k4, k5, -⟩ := g3 t ht.le
    obtain rfl : s₁' = s' := Option.some.inj (k2.symm.trans hs')
    obtain rfl : L₁' = L' := Option.some.inj (k4.symm.trans hL')
    have hu : us[t]? = some us[t] := List.getElem?_eq_getElem ht
    have hstep : SameInformation (stepOf cb us[t]) (stepOf cb' u') := by
      have e := List.Forall₂.get h.step ht (by omega)
      have e' : us'[t]'(by omega) = u' := (List.getElem?_eq_some_iff.1 hu').2
      simpa [e'] using e
    rw [k5, hstep.F, hstep.Q]
    exact hP t s L us[t] k1 k3 hu
  obtain ⟨states, l, h1, h2, h3, -⟩ := kalman_smoother_exact qr rng rng₁ cb u₀ us hus parallel parallel₁ key
    key₁ opts hR fs hf hP none (.inl rfl)
  obtain ⟨states', l', h1', h2', h3', -⟩ := kalman_smoother_exact qr' rng' rng₁' cb' u₀' us'
    (by rw [← List.length_pos_iff, hlen]; exact List.length_pos_iff.2 hus) parallel' parallel₁'
    key' key₁' opts' hR' fs' hf' hP' none (.inl rfl)
  refine ⟨states, states', h1, h1', fun t ht => ?_⟩
  obtain ⟨s, m, L, h4, h5, h6, h7⟩ := h3 t ht
  obtain ⟨s', m', L', h4', h5', h6', h7'⟩ := h3' t (by omega)
  obtain ⟨-, e2, e3⟩ := weighted_gauss_injective (m := m') (m' := m) (L := L') (M := L) (l := l')
    (l' := ((us'.take us.length).map fun u => logDensityAtZero (stepOf cb' u)).sum -
            ((us.take us.length).map fun u => logDensityAtZero (stepOf cb u)).sum + l) fun φ hφ => by
    have e := h.jointExp us.length fun p => φ (p t)
    rw [List.take_length, List.take_of_length_le hlen.le] at e
    rw [← h7' φ hφ, e, h7 φ hφ, Real.exp_add, ENNReal.ofReal_mul (Real.exp_nonneg _), mul_assoc, List.take_length,
      List.take_of_length_le hlen.le]
  subst e2
  exact ⟨s, s', m', L, L', h4, h4', h5, h5', h6, h6', e3⟩

/-! ### Compression -/

theorem range_of_mul_transpose {ι κ : Type*} [Fintype ι] [Fintype κ] [DecidableEq ι] (A : Matrix ι κ ℝ) (g : κ → ℝ) :
    ∃ w, (A * Aᵀ) *ᵥ w = A *ᵥ g := by
  have hle : LinearMap.range (A * Aᵀ).mulVecLin ≤ LinearMap.range A.mulVecLin := by
    rintro _ ⟨w, rfl⟩
    exact ⟨Aᵀ *ᵥ w, by rw [Matrix.mulVecLin_apply, Matrix.mulVecLin_apply, Matrix.mulVec_mulVec]⟩
  have hr : Module.finrank ℝ (LinearMap.range (A * Aᵀ).mulVecLin) = Module.finrank ℝ (LinearMap.range A.mulVecLin) :=
    Matrix.rank_self_mul_transpose A
  have e := Submodule.eq_of_le_of_finrank_eq hle hr
  obtain ⟨w, hw⟩ : A *ᵥ g ∈ LinearMap.range (A * Aᵀ).mulVecLin := e ▸ ⟨g, rfl⟩
  exact ⟨w, hw⟩

/-- A step in which everything is observed, with independent noises of variance one. -/
theorem information_unit (F : Matrix (Fin nx) (Fin nx) ℝ) (c : Fin nx → ℝ) (Q : Matrix (Fin nx) (Fin nx) ℝ)
    (H : Matrix (Fin ny) (Fin nx) ℝ) (z : Fin ny → ℝ) :
    infoMatrix (⟨F, c, Q, H, 0, 1, fun i => some (z i)⟩ : Step nx ny) = Hᵀ * H ∧
      infoVector (⟨F, c, Q, H, 0, 1, fun i => some (z i)⟩ : Step nx ny) = Hᵀ *ᵥ z ∧
      (Step.R (⟨F, c, Q, H, 0, 1, fun i => some (z i)⟩ : Step nx ny)) = 1 := by
  have hR : Step.R (⟨F, c, Q, H, 0, 1, fun i => some (z i)⟩ : Step nx ny) = 1 := by
    ext i j
    simp [Step.R, obsL, Matrix.mul_apply, Matrix.one_apply, Subtype.ext_iff]
  refine ⟨?_, ?_, hR⟩
  · rw [infoMatrix, hR, inv_one, Matrix.mul_one]
    ext a b
    rw [Matrix.mul_apply, Matrix.mul_apply]
    exact Linearize.sum_obs _ (fun i => Hᵀ a i * H i b) (by simp)
  · rw [infoVector, hR, inv_one, Matrix.one_mulVec]
    funext a
    have := Linearize.sum_obs (fun i => some (z i)) (fun i => Hᵀ a i * z i) (by simp)
    simpa [mulVec, dotProduct, obsH, obsV, obsY] using this

/-- **C144** (compression). However many components are observed, as many numbers as the state has components carry the same
information. -/
theorem exists_compressed (s : Step nx ny) (hR : s.R.det ≠ 0) :
    ∃ (H : Matrix (Fin nx) (Fin nx) ℝ) (z : Fin nx → ℝ),
      SameInformation s (⟨s.F, s.c, s.cholQ, H, 0, 1, fun i => some (z i)⟩ : Step nx nx) := by
  have hu : IsUnit s.R.det := isUnit_iff_ne_zero.2 hR
  have hRi : (s.R⁻¹)ᵀ = s.R⁻¹ := by rw [Matrix.transpose_nonsing_inv, s.R_gram.symm]
  have hg : IsGram (s.R⁻¹) := by
    have h := s.R_gram.conj s.R⁻¹
    rwa [hRi, Matrix.nonsing_inv_mul _ hu, Matrix.one_mul] at h
  obtain ⟨V, hV⟩ := hg.exists_sqrt
  have hA : infoMatrix s = ((obsH s.y s.H)ᵀ * V) * ((obsH s.y s.H)ᵀ * V)ᵀ := by
    rw [infoMatrix, ← hV, Matrix.transpose_mul, Matrix.transpose_transpose]
    simp only [Matrix.mul_assoc]
  obtain ⟨W, hW⟩ : ∃ W : Matrix (Fin nx) (Fin nx) ℝ, W * Wᵀ = infoMatrix s := by
    have h : IsGram (infoMatrix s) := hA ▸ isGram_of _
    exact h.exists_sqrt
  obtain ⟨w, hw⟩ := range_of_mul_transpose ((obsH s.y s.H)ᵀ * V) (Vᵀ *ᵥ (obsY s.y - obsV s.y s.d))
  have hz : W *ᵥ (Wᵀ *ᵥ w) = infoVector s := by
    rw [Matrix.mulVec_mulVec, hW, hA, hw, infoVector, Matrix.mulVec_mulVec, Matrix.mul_assoc, hV, ← Matrix.mulVec_mulVec]
  obtain ⟨e1, e2, -⟩ := information_unit s.F s.c s.cholQ Wᵀ (Wᵀ *ᵥ w)
  refine ⟨Wᵀ, Wᵀ *ᵥ w, rfl, rfl, rfl, ?_, ?_⟩
  · rw [e1, Matrix.transpose_transpose, hW]
  · rw [e2, Matrix.transpose_transpose, hz]

/-- The same for a whole run: the model with compressed observations satisfies the hypotheses of the theorems above. -/
theorem exists_compressed_run (cb : Callbacks nx ny Inp) (u₀ : Inp) (us : List Inp)
    (hR : ∀ u ∈ us, (stepOf cb u).R.det ≠ 0) : ∃ cb' : Callbacks nx nx Inp, cb'.getInit = cb.getInit ∧
      cb'.getDynamics = cb.getDynamics ∧ SameInformationRun cb cb' u₀ us u₀ us ∧ ∀ u, (stepOf cb' u).R.det ≠ 0 := by
  have h : ∀ u, ∃ (H : Matrix (Fin nx) (Fin nx) ℝ) (z : Fin nx → ℝ), (stepOf cb u).R.det ≠ 0 →
      SameInformation (stepOf cb u) (⟨(stepOf cb u).F, (stepOf cb u).c, (stepOf cb u).cholQ, H, 0, 1,
        fun i => some (z i)⟩ : Step nx nx) := by
    intro u
    by_cases hd : (stepOf cb u).R.det ≠ 0
    · obtain ⟨H, z, h⟩ := exists_compressed (stepOf cb u) hd
      exact ⟨H, z, fun _ => h⟩
    · exact ⟨0, 0, fun h => absurd h hd⟩
  choose H z hz using h
  refine ⟨⟨cb.getInit, cb.getDynamics, fun u => (H u, 0, 1, fun i => some (z u i))⟩, rfl, rfl, ⟨rfl, rfl, ?_⟩, fun u => ?_⟩
  · exact List.forall₂_same.2 fun u hu => hz u (hR u hu)
  · have e := (information_unit (stepOf cb u).F (stepOf cb u).c (stepOf cb u).cholQ (H u) (z u)).2.2
    have e' : (Step.R (⟨(stepOf cb u).F, (stepOf cb u).c, (stepOf cb u).cholQ, H u, 0, 1,
      fun i => some (z u i)⟩ : Step nx nx)).det ≠ 0 := by rw [e, Matrix.det_one]; exact one_ne_zero
    exact e'

/-- Non-vacuity: four measurements of the state with noise of variance one say the same as one measurement
of twice the state, whose value is twice their average, with the same noise. -/
theorem exists_sameInformation : ∃ (cb : Callbacks 1 4 ℕ) (cb' : Callbacks 1 1 ℕ),
    SameInformationRun cb cb' 0 [1, 2] 0 [1, 2] ∧ (∀ u, (stepOf cb u).R.det ≠ 0) ∧ (∀ u, (stepOf cb' u).R.det ≠ 0) ∧
    IsLower (cb.getInit 0).2 ∧ (∀ u, (stepOf cb u).y = ![some 1, some 3, some 5, some 7]) ∧
    (∀ u, (stepOf cb' u).y = ![some 8]) ∧ ∀ (u : ℕ) (L : Matrix (Fin 1) (Fin 1) ℝ),
      ((stepOf cb u).F * (L * Lᵀ) * ((stepOf cb u).F)ᵀ + (stepOf cb u).cholQ * ((stepOf cb u).cholQ)ᵀ).det ≠ 0 := by
  let y : Fin 4 → ℝ := ![1, 3, 5, 7]
  let cb : Callbacks 1 4 ℕ := ⟨fun _ => (0, 1), fun _ => (1, 0, 1), fun _ => (Matrix.of fun _ _ => 1, 0, 1, fun i => some (y i))⟩
  let cb' : Callbacks 1 1 ℕ := ⟨fun _ => (0, 1), fun _ => (1, 0, 1), fun _ =>
    (Matrix.of fun _ _ => 2, 0, 1, fun _ => some 8)⟩
  have hR : ∀ u, (stepOf cb u).R.det ≠ 0 := fun u => obsR_det _ _ (by simp [stepOf, cb])
  obtain ⟨e1, e2, -⟩ := information_unit (1 : Matrix (Fin 1) (Fin 1) ℝ) 0 1 (Matrix.of fun (_ : Fin 4) _ => 1) y
  obtain ⟨e1', e2', -⟩ := information_unit (1 : Matrix (Fin 1) (Fin 1) ℝ) 0 1 (Matrix.of fun (_ : Fin 1) _ => 2) fun _ => 8
  have key : ∀ u u', SameInformation (stepOf cb u) (stepOf cb' u') := by
    intro u u'
    refine ⟨rfl, rfl, rfl, ?_, ?_⟩
    · refine e1'.trans (Eq.trans ?_ e1.symm)
      ext i j
      simp [Matrix.mul_apply]
      norm_num
    · refine e2'.trans (Eq.trans ?_ e2.symm)
      funext i
      simp [mulVec, dotProduct, Fin.sum_univ_four, y]
      norm_num
  refine ⟨cb, cb', ⟨rfl, rfl, .cons (key _ _) (.cons (key _ _) .nil)⟩, hR, fun u => obsR_det _ _ ?_, ?_, fun u => ?_, fun u => ?_, ?_⟩
  · simp [stepOf, cb']
  · intro i j hij; exact absurd hij (by simp [Subsingleton.elim i j])
  · funext i; fin_cases i <;> rfl
  · funext i; fin_cases i; rfl
  · intro u L
    have : 0 ≤ L 0 0 * L 0 0 := mul_self_nonneg _
    simp [stepOf, cb, Matrix.det_unique, Matrix.mul_apply]
    positivity

end

end Cuthbert.Kalman
