import Verif.Spec.MomentsMap
import Verif.Props.LinearizedSteps
import Verif.Props.Transform
import Verif.Lemmas.JointMeasure
import Mathlib.Analysis.SpecialFunctions.Trigonometric.Deriv

/-!
# The moments filter in other coordinates (C145)
-/

namespace Cuthbert.Linearize
open MeasureTheory Matrix Cuthbert Cuthbert.Spec Kalman
open scoped ENNReal

noncomputable section

variable {nx nx' ny : ℕ} {Inp Inp' K K' : Type*}
variable {T : Matrix (Fin nx') (Fin nx) ℝ} {b : Fin nx' → ℝ}

theorem hasFDerivAt_affine (T : Matrix (Fin nx') (Fin nx) ℝ) (b : Fin nx' → ℝ) (x : Fin nx → ℝ) :
    HasFDerivAt (fun z => T *ᵥ z + b) (LinearMap.toContinuousLinearMap T.mulVecLin) x :=
  ((LinearMap.toContinuousLinearMap T.mulVecLin).hasFDerivAt (x := x)).add_const b

variable {f : MomentsFn nx nx} {g : MomentsFn nx ny} {f' : MomentsFn nx' nx'} {g' : MomentsFn nx' ny}

/-- Linearising commutes with the change of coordinates. -/
theorem tangent_dynamics (h : MomentsMap T b f g f' g') (x₀ x : Fin nx → ℝ) :
    tangentMean f' (T *ᵥ x₀ + b) (T *ᵥ x + b) = T *ᵥ tangentMean f x₀ x + b := by
  have e1 := ((h.smooth_f' (T *ᵥ x₀ + b)).hasFDerivAt).comp x₀ (hasFDerivAt_affine T b x₀)
  have e2 := (hasFDerivAt_affine T b (f x₀).1).comp x₀ (h.smooth_f x₀).hasFDerivAt
  have e3 : ((fun z => (f' z).1) ∘ fun z => T *ᵥ z + b) = (fun z => T *ᵥ z + b) ∘ fun z => (f z).1 := by
    funext z; exact h.mean_f z
  rw [e3] at e1
  have e4 := congrArg (fun A => A (x - x₀)) (e1.unique e2)
  have e5 : fderiv ℝ (fun z => (f' z).1) (T *ᵥ x₀ + b) (T *ᵥ (x - x₀)) =
      T *ᵥ fderiv ℝ (fun z => (f z).1) x₀ (x - x₀) := e4
  rw [tangentMean, tangentMean, h.mean_f, show T *ᵥ x + b - (T *ᵥ x₀ + b) = T *ᵥ (x - x₀) by
    rw [Matrix.mulVec_sub]; abel, e5, Matrix.mulVec_add]
  abel

theorem tangent_observation (h : MomentsMap T b f g f' g') (x₀ x : Fin nx → ℝ) :
    tangentMean g' (T *ᵥ x₀ + b) (T *ᵥ x + b) = tangentMean g x₀ x := by
  have e1 := ((h.smooth_g' (T *ᵥ x₀ + b)).hasFDerivAt).comp x₀ (hasFDerivAt_affine T b x₀)
  have e3 : ((fun z => (g' z).1) ∘ fun z => T *ᵥ z + b) = fun z => (g z).1 := by
    funext z; exact h.mean_g z
  rw [e3] at e1
  have e5 : fderiv ℝ (fun z => (g z).1) x₀ (x - x₀) = fderiv ℝ (fun z => (g' z).1) (T *ᵥ x₀ + b) (T *ᵥ (x - x₀)) := by
    rw [e1.fderiv]; rfl
  rw [tangentMean, tangentMean, h.mean_g, show T *ᵥ x + b - (T *ᵥ x₀ + b) = T *ᵥ (x - x₀) by
    rw [Matrix.mulVec_sub]; abel, e5]

theorem tangentMean_self (f : MomentsFn nx ny) (x : Fin nx → ℝ) : tangentMean f x x = (f x).1 := by
  simp [tangentMean]

/-- The two states hold the same law in different coordinates, and the same log normalising constant. -/
def MappedState (T : Matrix (Fin nx') (Fin nx) ℝ) (b : Fin nx' → ℝ) (s : LState nx Inp) (s' : LState nx' Inp') : Prop :=
  ∃ m L L' l, s.mean = some m ∧ s'.mean = some (T *ᵥ m + b) ∧ s.cholCov = some L ∧ s'.cholCov = some L' ∧
    L' * L'ᵀ = T * (L * Lᵀ) * Tᵀ ∧ s.logNormalizingConstant = some l ∧ s'.logNormalizingConstant = some l

theorem mappedState_step (qr qr' : QR) (D : Dummies nx) (D' : Dummies nx') {cb : MCallbacks nx ny Inp}
    {cb' : MCallbacks nx' ny Inp'} {F : Inp → MomentsFn nx nx} {G : Inp → MomentsFn nx ny} {Y : Inp → Fin ny → Option ℝ}
    {F' : Inp' → MomentsFn nx' nx'} {G' : Inp' → MomentsFn nx' ny} {Y' : Inp' → Fin ny → Option ℝ}
    (hc : LinearisesAtMean cb F G Y) (hc' : LinearisesAtMean cb' F' G' Y') {u : Inp} {u' : Inp'}
    (h : MomentsMap T b (F u) (G u) (F' u') (G' u')) (hy : Y' u' = Y u)
    (hR : ∀ x, (((G u x).2 * ((G u x).2)ᵀ).submatrix (Subtype.val : Obs (Y u) → Fin ny) Subtype.val).det ≠ 0)
    {s : LState nx Inp} {s' : LState nx' Inp'} (hs : MappedState T b s s') (key : Option K) (key' : Option K') :
    MappedState T b
      ((buildMomentsFilter (K := K) qr D cb false).filterCombine s
        ((buildMomentsFilter (K := K) qr D cb false).filterPrepare u key))
      ((buildMomentsFilter (K := K') qr' D' cb' false).filterCombine s'
        ((buildMomentsFilter (K := K') qr' D' cb' false).filterPrepare u' key')) := by
  obtain ⟨m, L, L', l, h1, h2, h3, h4, h5, h6, h7⟩ := hs
  have hst : IsState s m (L * Lᵀ) l := ⟨h1, by rw [h3]; rfl, h6⟩
  have hst' : IsState s' (T *ᵥ m + b) (L' * L'ᵀ) l := ⟨h2, by rw [h4]; rfl, h7⟩
  obtain ⟨pr, J, -, p1, -, -, p2⟩ := moments_step_is_extended_kalman qr D cb s u key m L l hst
  obtain ⟨pr', J', -, p1', -, -, p2'⟩ := moments_step_is_extended_kalman qr' D' cb' s' u' key' _ L' l hst'
  have d := hc.dynamics s u m h1
  have d' := hc'.dynamics s' u' _ h2
  have hm : pr.mean = some (F u m).1 := by
    have := p1.mean
    rwa [d, tangentMean_self] at this
  have hm' : pr'.mean = some (T *ᵥ (F u m).1 + b) := by
    have := p1'.mean
    rwa [d', tangentMean_self, h.mean_f] at this
  have o := hc.observation pr u _ hm
  have o' := hc'.observation pr' u' _ hm'
  rw [hy] at o'
  obtain ⟨s₁, m₁, L₁, l₁, rfl, q1, -, -, q2⟩ := p2 _ _ _ _ _ _ d o rfl (hR _)
  obtain ⟨s₁', m₁', L₁', l₁', rfl, q1', -, -, q2'⟩ := p2' _ _ _ _ _ _ d' o' rfl (by rw [h.noise_g]; exact hR _)
  have hTm : Measurable fun x : Fin nx → ℝ => T *ᵥ x + b := (measurable_mulVec T).add measurable_const
  obtain ⟨e1, e2, e3⟩ := weighted_gauss_injective (m := m₁') (m' := T *ᵥ m₁ + b) (L := L₁') (M := T * L₁) (l := l₁' - l)
    (l' := l₁ - l) fun φ hφ => by
      rw [← gauss_map_affine, lintegral_map hφ hTm, ← q2' φ hφ, ← q2 (fun x => φ (T *ᵥ x + b)) (hφ.comp hTm)]
      have hlik : Measurable fun x' : Fin nx' → ℝ => ENNReal.ofReal (Real.exp (gaussLogDensity
          (obsV (Y u) (tangentMean (G' u') (T *ᵥ (F u m).1 + b) x'))
          (((G u (F u m).1).2 * ((G u (F u m).1).2)ᵀ).submatrix (Subtype.val : Obs (Y u) → Fin ny) Subtype.val)
          (obsY (Y u)))) * φ x' := by
        refine Measurable.mul (ENNReal.measurable_ofReal.comp (Real.measurable_exp.comp ?_)) hφ
        refine measurable_gaussLogDensity_of _ ?_ measurable_const
        refine measurable_pi_lambda _ fun i => ?_
        refine (measurable_pi_apply i.1).comp ?_
        change Measurable fun x' => _ + _
        exact measurable_const.add ((ContinuousLinearMap.measurable _).comp (measurable_id.sub measurable_const))
      rw [h.noise_g]
      rw [lintegral_gauss_map (T := T) (b := b) (m := m) (L := L) rfl h5 ?_]
      · refine lintegral_congr fun x => ?_
        rw [lintegral_gauss_map (T := T) (b := b) (tangent_dynamics h m x) (h.noise_f m) hlik]
        refine lintegral_congr fun x' => ?_
        rw [tangent_observation h]
      · exact measurable_lintegral_kernel (fun x : Fin nx' → ℝ => tangentMean (F' u') (T *ᵥ m + b) x) (by
          simp only [tangentMean]
          exact measurable_const.add ((ContinuousLinearMap.measurable _).comp (measurable_id.sub measurable_const))) _
          (f := fun q : (Fin nx' → ℝ) × (Fin nx' → ℝ) => ENNReal.ofReal (Real.exp (gaussLogDensity
          (obsV (Y u) (tangentMean (G' u') (T *ᵥ (F u m).1 + b) q.2))
          (((G u (F u m).1).2 * ((G u (F u m).1).2)ᵀ).submatrix (Subtype.val : Obs (Y u) → Fin ny) Subtype.val)
          (obsY (Y u)))) * φ q.2) (hlik.comp measurable_snd)
  obtain ⟨N, hN, r2⟩ := Option.map_eq_some_iff.mp q1.cov
  obtain ⟨N', hN', r2'⟩ := Option.map_eq_some_iff.mp q1'.cov
  refine ⟨m₁, N, N', l₁, q1.mean, by rw [q1'.mean, e2], hN, hN', ?_, q1.ell, ?_⟩
  · rw [r2', e3, r2, Matrix.transpose_mul]
    simp only [Matrix.mul_assoc]
  · rw [q1'.ell]
    congr 1
    linarith

/-- **C145**. Changing the coordinates of the state of a nonlinear model by an affine map, with the conditional moments
linearised at the current mean, changes the means and covariances that the moments filter returns by the same map and leaves
the log normalising constants as they are. -/
theorem moments_filter_mapped (qr qr' : QR) (D : Dummies nx) (D' : Dummies nx') {cb : MCallbacks nx ny Inp}
    {cb' : MCallbacks nx' ny Inp'} {F : Inp → MomentsFn nx nx} {G : Inp → MomentsFn nx ny} {Y : Inp → Fin ny → Option ℝ}
    {F' : Inp' → MomentsFn nx' nx'} {G' : Inp' → MomentsFn nx' ny} {Y' : Inp' → Fin ny → Option ℝ}
    (hc : LinearisesAtMean cb F G Y) (hc' : LinearisesAtMean cb' F' G' Y') (u₀ : Inp) (u₀' : Inp') (us : List Inp)
    (us' : List Inp') (hm : (cb'.getInit u₀').1 = T *ᵥ (cb.getInit u₀).1 + b)
    (hP : (cb'.getInit u₀').2 * ((cb'.getInit u₀').2)ᵀ = T * ((cb.getInit u₀).2 * ((cb.getInit u₀).2)ᵀ) * Tᵀ)
    (h : List.Forall₂ (fun u u' => MomentsMap T b (F u) (G u) (F' u') (G' u') ∧ Y' u' = Y u) us us')
    (hR : ∀ u ∈ us, ∀ x, (((G u x).2 * ((G u x).2)ᵀ).submatrix (Subtype.val : Obs (Y u) → Fin ny) Subtype.val).det ≠ 0)
    (rng : Prng K) (rng' : Prng K') (key : Option K) (key' : Option K') :
    ∃ states states', (filter rng (buildMomentsFilter qr D cb false) (u₀ :: us) false key).result = .ok states ∧
      (filter rng' (buildMomentsFilter qr' D' cb' false) (u₀' :: us') false key').result = .ok states' ∧
      ∀ t ≤ us.length, ∃ s s' m L L' l, states[t]? = some s ∧ states'[t]? = some s' ∧
        s.mean = some m ∧ s'.mean = some (T *ᵥ m + b) ∧ s.cholCov = some L ∧ s'.cholCov = some L' ∧
        L' * L'ᵀ = T * (L * Lᵀ) * Tᵀ ∧ s.logNormalizingConstant = some l ∧ s'.logNormalizingConstant = some l := by
  obtain ⟨states, hst, hrun⟩ := filter_sequential_is_online_run rng (buildMomentsFilter (K := K) qr D cb false)
    (u₀ :: us) key (by simp)
  obtain ⟨states', hst', hrun'⟩ := filter_sequential_is_online_run rng' (buildMomentsFilter (K := K') qr' D' cb' false)
    (u₀' :: us') key' (by simp)
  have hlen : us.length = us'.length := h.length_eq
  have main : ∀ t ≤ us.length, ∃ s s', states[t]? = some s ∧ states'[t]? = some s' ∧ MappedState T b s s' := by
    intro t
    induction t with
    | zero =>
      intro _
      refine ⟨_, _, hrun.first u₀ rfl, hrun'.first u₀' rfl, (cb.getInit u₀).1, (cb.getInit u₀).2, (cb'.getInit u₀').2, 0, rfl,
        ?_, rfl, rfl, hP, rfl, rfl⟩
      rw [← hm]
      rfl
    | succ t ih =>
      intro ht
      obtain ⟨s, s', g1, g2, g3⟩ := ih (by omega)
      have hu : us[t]? = some us[t] := List.getElem?_eq_getElem ht
      have e := List.Forall₂.get h ht (by omega)
      refine ⟨_, _, hrun.step t us[t] s (by simp) g1, hrun'.step t (us'[t]'(by omega)) s' (by simp) g2, ?_⟩
      exact mappedState_step qr qr' D D' hc hc' (by simpa using e.1) (by simpa using e.2) (hR _ (List.getElem_mem _)) g3 _ _
  refine ⟨states, states', hst, hst', fun t ht => ?_⟩
  obtain ⟨s, s', g1, g2, m, L, L', l, g3⟩ := main t ht
  exact ⟨s, s', m, L, L', l, g1, g2, g3⟩

/-! ## A model that meets the hypotheses -/

/-- A pendulum-like model: `x' = sin x + noise`, observed as `y = x² + noise`. -/
def sineDyn : MomentsFn 1 1 := fun x => (fun _ => Real.sin (x 0), Matrix.of fun _ _ => 1)

def squareObs : MomentsFn 1 1 := fun x => (fun _ => x 0 ^ 2, Matrix.of fun _ _ => 1)

/-- The same model for the variable `z = 2 x + 3`. -/
def sineDyn' : MomentsFn 1 1 := fun z => (fun _ => 2 * Real.sin ((z 0 - 3) / 2) + 3, Matrix.of fun _ _ => 2)

def squareObs' : MomentsFn 1 1 := fun z => (fun _ => ((z 0 - 3) / 2) ^ 2, Matrix.of fun _ _ => 1)

def meanCallbacks (m₀ c₀ : ℝ) (f g : MomentsFn 1 1) : MCallbacks 1 1 ℝ where
  getInit := fun _ => (fun _ => m₀, Matrix.of fun _ _ => c₀)
  getDynamics := fun s _ => (f, s.mean.getD 0)
  getObservation := fun s u => (g, s.mean.getD 0, fun _ => some u)

theorem meanCallbacks_linearises (m₀ c₀ : ℝ) (f g : MomentsFn 1 1) :
    LinearisesAtMean (meanCallbacks m₀ c₀ f g) (fun _ => f) (fun _ => g) fun u _ => some u :=
  ⟨fun s u m h => by simp [meanCallbacks, h], fun s u m h => by simp [meanCallbacks, h]⟩

theorem sine_mapped :
    MomentsMap (Matrix.of fun _ _ => 2) (fun _ => 3) sineDyn squareObs sineDyn' squareObs' where
  smooth_f := by
    refine differentiable_pi.mpr fun _ => ?_
    simp only [sineDyn]
    fun_prop
  smooth_f' := by
    refine differentiable_pi.mpr fun _ => ?_
    simp only [sineDyn']
    fun_prop
  smooth_g' := by
    refine differentiable_pi.mpr fun _ => ?_
    simp only [squareObs']
    fun_prop
  mean_f := fun x => by
    funext i
    simp [sineDyn, sineDyn', Matrix.mulVec, dotProduct]
  noise_f := fun x => by
    ext i j
    simp [sineDyn, sineDyn', Matrix.mul_apply]
  mean_g := fun x => by
    funext i
    simp [squareObs, squareObs', Matrix.mulVec, dotProduct]
  noise_g := fun x => by
    ext i j
    simp [squareObs, squareObs', Matrix.mul_apply]

/-- The hypotheses hold for a nonlinear model in other coordinates, whatever the observations. -/
theorem exists_moments_mapped (qr : QR) (D : Dummies 1) (ys : List ℝ) (rng : Prng K) (key : Option K) :
    ∃ states states', (filter rng (buildMomentsFilter qr D (meanCallbacks 1 1 sineDyn squareObs) false) (0 :: ys) false
        key).result = .ok states ∧
      (filter rng (buildMomentsFilter qr D (meanCallbacks 5 2 sineDyn' squareObs') false) (0 :: ys) false
        key).result = .ok states' ∧
      ∀ t ≤ ys.length, ∃ s s' m l, states[t]? = some s ∧ states'[t]? = some s' ∧ s.mean = some m ∧
        s'.mean = some ((Matrix.of fun _ _ => (2 : ℝ)) *ᵥ m + fun _ => 3) ∧
        s.logNormalizingConstant = some l ∧ s'.logNormalizingConstant = some l := by
  obtain ⟨states, states', h1, h2, h3⟩ := moments_filter_mapped (T := Matrix.of fun _ _ => 2) (b := fun _ => 3) qr qr D D
    (meanCallbacks_linearises 1 1 sineDyn squareObs) (meanCallbacks_linearises 5 2 sineDyn' squareObs') 0 0 ys ys
    (by funext i; simp [meanCallbacks, Matrix.mulVec, dotProduct]; norm_num)
    (by ext i j; simp [meanCallbacks, Matrix.mul_apply])
    (List.forall₂_same.mpr fun _ _ => ⟨sine_mapped, rfl⟩)
    (fun u _ x => by
      have e : ((squareObs x).2 * ((squareObs x).2)ᵀ) = (1 : Matrix (Fin 1) (Fin 1) ℝ) := by
        ext i j
        simp [squareObs, Matrix.mul_apply, Matrix.one_apply, Subsingleton.elim i j]
      rw [e, Matrix.submatrix_one _ Subtype.val_injective, Matrix.det_one]
      exact one_ne_zero) rng rng key key
  refine ⟨states, states', h1, h2, fun t ht => ?_⟩
  obtain ⟨s, s', m, L, L', l, g1, g2, g3, g4, -, -, -, g5, g6⟩ := h3 t ht
  exact ⟨s, s', m, l, g1, g2, g3, g4, g5, g6⟩

end

end Cuthbert.Linearize
