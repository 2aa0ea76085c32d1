import Verif.Props.MapTrajectory
import Verif.Props.LinearizedSmoothers

/-!
# Iterating a linearised smoother climbs towards the most probable trajectory (C92)
-/

namespace Cuthbert.Linearize
open Matrix Cuthbert Cuthbert.Spec Kalman

noncomputable section

set_option linter.unusedSectionVars false

variable {nx ny : ℕ} {Inp K : Type*}

/-! ### Derivatives of the log density along a line -/

theorem gaussLogDensity_sub {ι : Type*} [Fintype ι] [DecidableEq ι] (m : ι → ℝ) (S : Matrix ι ι ℝ) (y : ι → ℝ) :
    gaussLogDensity m S y = gaussLogDensity 0 S (y - m) := by
  rw [gaussLogDensity, gaussLogDensity, sub_zero]

/-- Slope of the log density at the residual `r` in the direction `v`. -/
def slope {ι : Type*} [Fintype ι] [DecidableEq ι] (S : Matrix ι ι ℝ) (r v : ι → ℝ) : ℝ :=
  -(1 / 2) * (v ⬝ᵥ S⁻¹ *ᵥ r + r ⬝ᵥ S⁻¹ *ᵥ v)

theorem gaussLogDensity_hasDerivAt {ι : Type*} [Fintype ι] [DecidableEq ι] (S : Matrix ι ι ℝ) (r : ℝ → ι → ℝ)
    (v : ι → ℝ) (h : HasDerivAt r v 0) :
    HasDerivAt (fun s => gaussLogDensity 0 S (r s)) (slope S (r 0) v) 0 := by
  have hi : ∀ i, HasDerivAt (fun s => r s i) (v i) 0 := hasDerivAt_pi.mp h
  have h1 : HasDerivAt (fun s => ∑ i, r s i * ∑ j, S⁻¹ i j * r s j)
      (∑ i, (v i * (∑ j, S⁻¹ i j * r 0 j) + r 0 i * ∑ j, S⁻¹ i j * v j)) 0 :=
    HasDerivAt.fun_sum fun i _ => (hi i).mul (HasDerivAt.fun_sum fun j _ => (hi j).const_mul (S⁻¹ i j))
  have h2 := ((h1.const_mul (-(1 / 2) : ℝ)).sub_const (Fintype.card ι / 2 * Real.log (2 * Real.pi))).sub_const
    (1 / 2 * Real.log S.det)
  rw [Finset.sum_add_distrib] at h2
  simp only [gaussLogDensity, sub_zero]
  exact h2

theorem gaussLogDensity_line {ι : Type*} [Fintype ι] [DecidableEq ι] (S : Matrix ι ι ℝ) (r v : ι → ℝ) (s : ℝ) :
    gaussLogDensity 0 S (r + s • v) = gaussLogDensity 0 S r + slope S r v * s +
      -(1 / 2) * (v ⬝ᵥ S⁻¹ *ᵥ v) * s ^ 2 := by
  simp only [gaussLogDensity, slope, sub_zero, Matrix.mulVec_add, Matrix.mulVec_smul, dotProduct_add, add_dotProduct,
    dotProduct_smul, smul_dotProduct, smul_eq_mul]
  ring

/-! ### Linearising a trajectory -/

/-- The step with the functions linearised at `a` and `b`. -/
def linStep (n : NStep nx ny) (a b : Fin nx → ℝ) : Step nx ny where
  F := jacfwd n.f a
  c := n.f a - jacfwd n.f a *ᵥ a
  cholQ := n.cholQ
  H := jacfwd n.h b
  d := n.h b - jacfwd n.h b *ᵥ b
  cholR := n.cholR
  y := n.y

/-- The model linearised along a trajectory. -/
def linSteps : List (NStep nx ny) → (ℕ → Fin nx → ℝ) → List (Step nx ny)
  | [], _ => []
  | n :: ns, x => linStep n (x 0) (x 1) :: linSteps ns fun k => x (k + 1)

theorem jacfwd_mulVec {a b : ℕ} (f : (Fin a → ℝ) → Fin b → ℝ) (x v : Fin a → ℝ) :
    jacfwd f x *ᵥ v = fderiv ℝ f x v := by
  rw [jacfwd, LinearMap.toMatrix'_mulVec]
  rfl

theorem line_hasDerivAt {E : Type*} [NormedAddCommGroup E] [NormedSpace ℝ E] (x v : E) :
    HasDerivAt (fun s : ℝ => x + s • v) v 0 := by
  have h := ((hasDerivAt_id (0 : ℝ)).smul_const v).const_add x
  rw [one_smul] at h
  exact h

theorem comp_line_hasDerivAt {a b : ℕ} (f : (Fin a → ℝ) → Fin b → ℝ) (x v : Fin a → ℝ) (h : DifferentiableAt ℝ f x) :
    HasDerivAt (fun s : ℝ => f (x + s • v)) (jacfwd f x *ᵥ v) 0 := by
  rw [jacfwd_mulVec]
  have h0 : HasFDerivAt f (fderiv ℝ f x) (x + (0 : ℝ) • v) := by
    rw [zero_smul, add_zero]
    exact h.hasFDerivAt
  exact h0.comp_hasDerivAt 0 (line_hasDerivAt x v)

/-- Along every line through the trajectory the log density of the model and that of the linearised model have the
same slope, and the latter is quadratic. -/
theorem nlLogDensityFrom_slope : ∀ (ns : List (NStep nx ny)) (x h : ℕ → Fin nx → ℝ), SmoothAlong ns x →
    ∃ A D C : ℝ, HasDerivAt (fun s : ℝ => nlLogDensityFrom ns (x + s • h)) D 0 ∧
      ∀ s : ℝ, logDensityFrom (linSteps ns x) (x + s • h) = A + D * s + C * s ^ 2
  | [], x, h, _ => ⟨0, 0, 0, by
      simpa only [nlLogDensityFrom] using hasDerivAt_const (0 : ℝ) (0 : ℝ), fun s => by
      simp [linSteps, logDensityFrom]⟩
  | n :: ns, x, h, hs => by
    obtain ⟨A, D, C, h1, h2⟩ := nlLogDensityFrom_slope ns (fun k => x (k + 1)) (fun k => h (k + 1)) hs.2.2
    -- the transition
    have t1 : HasDerivAt (fun s : ℝ => x 1 + s • h 1 - n.f (x 0 + s • h 0)) (h 1 - jacfwd n.f (x 0) *ᵥ h 0) 0 :=
      (line_hasDerivAt (x 1) (h 1)).sub (comp_line_hasDerivAt n.f (x 0) (h 0) hs.1)
    have t2 := gaussLogDensity_hasDerivAt (n.cholQ * n.cholQᵀ) _ _ t1
    -- the observation
    have o1 : HasDerivAt (fun s : ℝ => obsY n.y - obsV n.y (n.h (x 1 + s • h 1)))
        (-obsV n.y (jacfwd n.h (x 1) *ᵥ h 1)) 0 := by
      have o0 := comp_line_hasDerivAt n.h (x 1) (h 1) hs.2.1
      refine HasDerivAt.const_sub _ (hasDerivAt_pi.mpr fun i => ?_)
      exact hasDerivAt_pi.mp o0 i.1
    have o2 := gaussLogDensity_hasDerivAt n.R _ _ o1
    simp only [zero_smul, add_zero] at t2 o2
    refine ⟨gaussLogDensity 0 (n.cholQ * n.cholQᵀ) (x 1 - n.f (x 0)) + gaussLogDensity 0 n.R
      (obsY n.y - obsV n.y (n.h (x 1))) + A, slope (n.cholQ * n.cholQᵀ) (x 1 - n.f (x 0))
        (h 1 - jacfwd n.f (x 0) *ᵥ h 0) + slope n.R (obsY n.y - obsV n.y (n.h (x 1)))
        (-obsV n.y (jacfwd n.h (x 1) *ᵥ h 1)) + D, -(1 / 2) * ((h 1 - jacfwd n.f (x 0) *ᵥ h 0) ⬝ᵥ
          (n.cholQ * n.cholQᵀ)⁻¹ *ᵥ (h 1 - jacfwd n.f (x 0) *ᵥ h 0)) + -(1 / 2) *
          ((-obsV n.y (jacfwd n.h (x 1) *ᵥ h 1)) ⬝ᵥ n.R⁻¹ *ᵥ (-obsV n.y (jacfwd n.h (x 1) *ᵥ h 1))) + C, ?_, ?_⟩
    · have h3 := (t2.add o2).add h1
      refine h3.congr_of_eventuallyEq (Filter.Eventually.of_forall fun s => ?_)
      simp only [nlLogDensityFrom, Pi.add_apply, Pi.smul_apply]
      rw [gaussLogDensity_sub (n.f _), gaussLogDensity_sub (obsV _ _)]
      rfl
    · intro s
      have e1 : (x + s • h) 1 - ((linStep n (x 0) (x 1)).F *ᵥ (x + s • h) 0 + (linStep n (x 0) (x 1)).c) =
          (x 1 - n.f (x 0)) + s • (h 1 - jacfwd n.f (x 0) *ᵥ h 0) := by
        simp only [linStep, Pi.add_apply, Pi.smul_apply, Matrix.mulVec_add, Matrix.mulVec_smul, smul_sub]
        abel
      have e2 : obsY n.y - (obsH n.y (linStep n (x 0) (x 1)).H *ᵥ (x + s • h) 1 +
          obsV n.y (linStep n (x 0) (x 1)).d) =
          (obsY n.y - obsV n.y (n.h (x 1))) + s • (-obsV n.y (jacfwd n.h (x 1) *ᵥ h 1)) := by
        have e3 : ∀ v : Fin nx → ℝ, obsH n.y (jacfwd n.h (x 1)) *ᵥ v = obsV n.y (jacfwd n.h (x 1) *ᵥ v) :=
          fun v => rfl
        simp only [linStep, Pi.add_apply, Pi.smul_apply, Matrix.mulVec_add, Matrix.mulVec_smul, e3]
        ext i
        simp only [obsV, Pi.add_apply, Pi.sub_apply, Pi.smul_apply, Pi.neg_apply, smul_eq_mul]
        ring
      have h4 := h2 s
      have h5 : logDensityFrom (linSteps (n :: ns) x) (x + s • h) =
          gaussLogDensity ((linStep n (x 0) (x 1)).F *ᵥ (x + s • h) 0 + (linStep n (x 0) (x 1)).c)
            (n.cholQ * n.cholQᵀ) ((x + s • h) 1) +
          gaussLogDensity (obsH n.y (linStep n (x 0) (x 1)).H *ᵥ (x + s • h) 1 +
            obsV n.y (linStep n (x 0) (x 1)).d) n.R (obsY n.y) +
          logDensityFrom (linSteps ns fun k => x (k + 1)) ((fun k => x (k + 1)) + s • fun k => h (k + 1)) := rfl
      rw [h5, gaussLogDensity_sub _ (n.cholQ * n.cholQᵀ), e1, gaussLogDensity_sub _ n.R, e2, gaussLogDensity_line,
        gaussLogDensity_line, h4]
      ring

theorem nlLogDensity_slope (m0 : Fin nx → ℝ) (cholP0 : Matrix (Fin nx) (Fin nx) ℝ) (ns : List (NStep nx ny))
    (x h : ℕ → Fin nx → ℝ) (hs : SmoothAlong ns x) :
    ∃ A D C : ℝ, HasDerivAt (fun s : ℝ => nlLogDensity m0 cholP0 ns (x + s • h)) D 0 ∧
      ∀ s : ℝ, pathLogDensity m0 cholP0 (linSteps ns x) (x + s • h) = A + D * s + C * s ^ 2 := by
  obtain ⟨A, D, C, h1, h2⟩ := nlLogDensityFrom_slope ns x h hs
  have t1 : HasDerivAt (fun s : ℝ => x 0 + s • h 0 - m0) (h 0) 0 := (line_hasDerivAt (x 0) (h 0)).sub_const m0
  have t2 := gaussLogDensity_hasDerivAt (cholP0 * cholP0ᵀ) _ _ t1
  simp only [zero_smul, add_zero] at t2
  refine ⟨gaussLogDensity 0 (cholP0 * cholP0ᵀ) (x 0 - m0) + A, slope (cholP0 * cholP0ᵀ) (x 0 - m0) (h 0) + D,
    -(1 / 2) * (h 0 ⬝ᵥ (cholP0 * cholP0ᵀ)⁻¹ *ᵥ h 0) + C, ?_, fun s => ?_⟩
  · refine (t2.add h1).congr_of_eventuallyEq (Filter.Eventually.of_forall fun s => ?_)
    change gaussLogDensity m0 (cholP0 * cholP0ᵀ) (x 0 + s • h 0) + nlLogDensityFrom ns (x + s • h) = _
    rw [gaussLogDensity_sub m0]
    rfl
  · have e1 : (x + s • h) 0 - m0 = (x 0 - m0) + s • h 0 := by
      simp only [Pi.add_apply, Pi.smul_apply]
      abel
    rw [pathLogDensity, gaussLogDensity_sub m0, e1, gaussLogDensity_line, h2 s]
    ring

/-- Maximising a function that is quadratic along lines through `x` and has there the slopes of `ℓ`: the direction to
the maximiser is one of ascent of `ℓ`, and the maximiser is `x` exactly at stationary points. -/
theorem max_ascent (ℓ q : (ℕ → Fin nx → ℝ) → ℝ) (x m : ℕ → Fin nx → ℝ) (T : ℕ)
    (hs : ∀ h, ∃ A D C : ℝ, HasDerivAt (fun s : ℝ => ℓ (x + s • h)) D 0 ∧
      ∀ s : ℝ, q (x + s • h) = A + D * s + C * s ^ 2)
    (hm : ∀ x', q x' ≤ q m ∧ (q x' = q m → ∀ t ≤ T, x' t = m t))
    (hloc : ∀ x', (∀ t ≤ T, x' t = m t) → q x' = q m) :
    (∀ h, LineDifferentiableAt ℝ ℓ x h) ∧
    0 ≤ lineDeriv ℝ ℓ x (m - x) ∧
    (lineDeriv ℝ ℓ x (m - x) = 0 → ∀ t ≤ T, x t = m t) ∧
    ((∀ t ≤ T, x t = m t) → ∀ h, lineDeriv ℝ ℓ x h = 0) := by
  have hline : ∀ h, ∃ A C : ℝ, LineDifferentiableAt ℝ ℓ x h ∧
      ∀ s : ℝ, q (x + s • h) =
        A + lineDeriv ℝ ℓ x h * s + C * s ^ 2 := by
    intro h
    obtain ⟨A, D, C, h1, h2⟩ := hs h
    have h3 : HasLineDerivAt ℝ ℓ D x h := h1
    exact ⟨A, C, h3.lineDifferentiableAt, by rw [h3.lineDeriv]; exact h2⟩
  obtain ⟨A, C, -, hq⟩ := hline (m - x)
  obtain ⟨D, hD⟩ : ∃ D, D = lineDeriv ℝ ℓ x (m - x) := ⟨_, rfl⟩
  rw [← hD] at hq ⊢
  have h0 : q x = A := by
    have := hq 0
    simpa using this
  have h1 : q m = A + D + C := by
    have := hq 1
    rw [one_smul, add_sub_cancel] at this
    simpa using this
  have h2 : D + 2 * C = 0 := by
    have hle : ∀ s : ℝ, D * s + C * s ^ 2 ≤ D + C := by
      intro s
      have := (hm (x + s • (m - x))).1
      rw [hq, h1] at this
      linarith
    have hd : HasDerivAt (fun s : ℝ => D * s + C * s ^ 2) (D * 1 + C * (2 * 1 ^ (2 - 1) * 1)) 1 :=
      ((hasDerivAt_id (1 : ℝ)).const_mul D).add (((hasDerivAt_id (1 : ℝ)).pow 2).const_mul C)
    have hmax : IsLocalMax (fun s : ℝ => D * s + C * s ^ 2) 1 :=
      Filter.Eventually.of_forall fun s => by
        have := hle s
        simpa using this
    have := hmax.hasDerivAt_eq_zero hd
    norm_num at this
    linarith
  have h3 : A ≤ A + D + C := by
    have := (hm x).1
    rwa [h0, h1] at this
  refine ⟨fun h => (hline h).choose_spec.choose_spec.1, by linarith, fun hz => ?_, fun hx h => ?_⟩
  · refine (hm x).2 ?_
    rw [h0, h1]
    linarith
  · obtain ⟨A', C', -, hq'⟩ := hline h
    have hle : ∀ s : ℝ, lineDeriv ℝ ℓ x h * s + C' * s ^ 2 ≤ 0 := by
      intro s
      have e1 := (hm (x + s • h)).1
      have e2 := hq' 0
      rw [← hloc x hx] at e1
      rw [hq'] at e1
      simp only [zero_smul, add_zero, mul_zero, ne_eq, OfNat.ofNat_ne_zero, not_false_eq_true, zero_pow] at e2
      linarith
    obtain ⟨D', hD'⟩ : ∃ D', D' = lineDeriv ℝ ℓ x h := ⟨_, rfl⟩
    rw [← hD'] at hle ⊢
    have hd : HasDerivAt (fun s : ℝ => D' * s + C' * s ^ 2) (D' * 1 + C' * (2 * 0 ^ (2 - 1) * 1)) 0 :=
      ((hasDerivAt_id (0 : ℝ)).const_mul D').add (((hasDerivAt_id (0 : ℝ)).pow 2).const_mul C')
    have hmax : IsLocalMax (fun s : ℝ => D' * s + C' * s ^ 2) 0 :=
      Filter.Eventually.of_forall fun s => by
        have := hle s
        simpa using this
    have := hmax.hasDerivAt_eq_zero hd
    norm_num at this
    exact this

/-- Maximising the linearised log density: the direction to the maximiser is one of ascent, and the maximiser is the
point of linearisation exactly at stationary points. -/
theorem linearised_max_ascent (m0 : Fin nx → ℝ) (cholP0 : Matrix (Fin nx) (Fin nx) ℝ) (ns : List (NStep nx ny))
    (x m : ℕ → Fin nx → ℝ) (hs : SmoothAlong ns x) (T : ℕ)
    (hm : ∀ x', pathLogDensity m0 cholP0 (linSteps ns x) x' ≤ pathLogDensity m0 cholP0 (linSteps ns x) m ∧
      (pathLogDensity m0 cholP0 (linSteps ns x) x' = pathLogDensity m0 cholP0 (linSteps ns x) m →
        ∀ t ≤ T, x' t = m t))
    (hloc : ∀ x', (∀ t ≤ T, x' t = m t) → pathLogDensity m0 cholP0 (linSteps ns x) x' =
      pathLogDensity m0 cholP0 (linSteps ns x) m) :
    (∀ h, LineDifferentiableAt ℝ (nlLogDensity m0 cholP0 ns) x h) ∧
    0 ≤ lineDeriv ℝ (nlLogDensity m0 cholP0 ns) x (m - x) ∧
    (lineDeriv ℝ (nlLogDensity m0 cholP0 ns) x (m - x) = 0 → ∀ t ≤ T, x t = m t) ∧
    ((∀ t ≤ T, x t = m t) → ∀ h, lineDeriv ℝ (nlLogDensity m0 cholP0 ns) x h = 0) :=
  max_ascent _ _ x m T (fun h => nlLogDensity_slope m0 cholP0 ns x h hs) hm hloc

theorem logDensityFrom_congr : ∀ (ss : List (Step nx ny)) (x x' : ℕ → Fin nx → ℝ),
    (∀ t ≤ ss.length, x t = x' t) → logDensityFrom ss x = logDensityFrom ss x'
  | [], _, _, _ => rfl
  | s :: ss, x, x', h => by
    have h1 := logDensityFrom_congr ss (fun k => x (k + 1)) (fun k => x' (k + 1)) fun t ht =>
      h (t + 1) (by simpa using ht)
    simp only [logDensityFrom]
    rw [h 0 (Nat.zero_le _), h 1 (by simp), h1]

theorem linSteps_length : ∀ (ns : List (NStep nx ny)) (x : ℕ → Fin nx → ℝ), (linSteps ns x).length = ns.length
  | [], _ => rfl
  | _ :: ns, x => by simp [linSteps, linSteps_length ns]

/-! ## Smoothing with callbacks that ignore the state -/

/-- Filtering and smoothing with callbacks that ignore the state is filtering and smoothing of the linearised
model. -/
theorem moments_smoothing_is_linearised (qr : QR) (D : Dummies nx) (cb : MCallbacks nx ny Inp) (hsf : StateFree cb)
    (rng rng' : Prng K) (u₀ : Inp) (us : List Inp) (associative parallel parallel' : Bool)
    (hpar : associative = true ∨ parallel = false) (key key' : Option K) (opts : SmootherOpts nx Inp)
    (hR : ∀ u ∈ us, (stepOf (linearisedAt cb (dummyState D)) u).R.det ≠ 0) :
    ∃ fs fs' p', (filter rng (buildMomentsFilter qr D cb associative) (u₀ :: us) parallel key).result = .ok fs ∧
      (filter rng (buildFilter qr (linearisedAt cb (dummyState D))) (u₀ :: us) p' key).result = .ok fs' ∧
      (smoother rng' LState.modelInputs (fun u => .ok (opts.dummy u))
        (buildMomentsSmoother qr cb.getDynamics opts) fs (some us) parallel' key').result.map (List.map smoothView) =
      (smoother rng' FilterState.modelInputs (fun u => .ok (opts.dummy u))
        (buildSmoother qr (linearisedAt cb (dummyState D)).getDynamics opts) fs' (some us) parallel'
          key').result.map (List.map smoothView) := by
  have hlin : ∀ s, linearisedAt cb s = linearisedAt cb (dummyState D) := by
    intro s
    simp only [linearisedAt, Callbacks.mk.injEq]
    refine ⟨trivial, funext fun u => ?_, funext fun u => ?_⟩
    · rw [(hsf (s u) (dummyState D u) u).1]
    · rw [(hsf (s u) (dummyState D u) u).2]
  obtain ⟨fs, fs', p', h1, h2, h3, hlen⟩ : ∃ fs fs' p',
      (filter rng (buildMomentsFilter qr D cb associative) (u₀ :: us) parallel key).result = .ok fs ∧
      (filter rng (buildFilter qr (linearisedAt cb (dummyState D))) (u₀ :: us) p' key).result = .ok fs' ∧
      SameMoments fs fs' ∧ us.length + 1 = fs.length := by
    cases associative with
    | true =>
      obtain ⟨fs', h2, hl, -⟩ := kalman_run qr rng (linearisedAt cb (dummyState D)) u₀ us parallel key hR
      have h3 := h2
      rw [← moments_associative_is_linearised_kalman qr D cb] at h3
      cases hr : (filter rng (buildMomentsFilter qr D cb true) (u₀ :: us) parallel key).result with
      | error e => rw [hr] at h3; cases h3
      | ok fs =>
        rw [hr] at h3
        simp only [Except.map, Except.ok.injEq] at h3
        refine ⟨fs, fs', parallel, rfl, h2, ?_, ?_⟩
        · rw [SameMoments, ← h3, List.map_map]
          rfl
        · rw [← hl, ← h3, List.length_map]
    | false =>
      obtain rfl : parallel = false := hpar.resolve_left (by simp)
      obtain ⟨fs, hst, hrun⟩ := filter_sequential_is_online_run rng (buildMomentsFilter (K := K) qr D cb false)
        (u₀ :: us) key (by simp)
      obtain ⟨fs', hst', hl', hk⟩ := kalman_run qr rng (linearisedAt cb (dummyState D)) u₀ us false key hR
      have hl : fs.length = us.length + 1 := by simpa using hrun.length_eq
      refine ⟨fs, fs', false, hst, hst', List.ext_getElem? fun t => ?_, hl.symm⟩
      rw [List.getElem?_map, List.getElem?_map]
      rcases Nat.lt_or_ge us.length t with ht | ht
      · rw [List.getElem?_eq_none (by omega), List.getElem?_eq_none (by omega)]
        rfl
      · obtain ⟨s₁, e1, hm, ⟨L, hL, hLP⟩, -⟩ := moments_run qr D cb _ (fun _ => rfl) hlin u₀ us _ fs hrun hR t ht
        obtain ⟨s₂, e2, hm', ⟨L', hL', hLP'⟩, -⟩ := hk t ht
        rw [e1, e2, Option.map_some, Option.map_some, hm, hm', hL, hL', Option.map_some, Option.map_some, hLP, hLP']
  refine ⟨fs, fs', p', h1, h2, ?_⟩
  refine linearized_smoother_is_kalman qr qr rng' rng' LState.modelInputs FilterState.modelInputs _
    (linearisedAt cb (dummyState D)).getDynamics opts _ (fun _ _ _ => rfl) (fun x u k => ⟨_, rfl, ?_⟩) rfl fs fs' h3
    us hlen parallel' key' key'
  have h4 : linearizeMoments (cb.getDynamics x u).1 (cb.getDynamics x u).2 =
      (linearisedAt cb (dummyState D)).getDynamics u := by
    rw [(hsf x (dummyState D u) u).1]
    rfl
  change smootherStateOf qr opts x u (some (linearizeMoments (cb.getDynamics x u).1 (cb.getDynamics x u).2)) = _
  rw [h4]

/-! ## C92 -/

/-- The callbacks give the functions of the model `nl` with the linearisation points `pts`, both read from the model
inputs; the noise covariances do not depend on the state. -/
structure Relinearises (cb : MCallbacks nx ny Inp) (nl : Inp → NStep nx ny)
    (pts : Inp → (Fin nx → ℝ) × (Fin nx → ℝ)) : Prop where
  dynamics : ∀ s u, cb.getDynamics s u = (fun x => ((nl u).f x, (nl u).cholQ), (pts u).1)
  observation : ∀ s u, cb.getObservation s u = (fun x => ((nl u).h x, (nl u).cholR), (pts u).2, (nl u).y)

theorem Relinearises.stateFree {cb : MCallbacks nx ny Inp} {nl : Inp → NStep nx ny}
    {pts : Inp → (Fin nx → ℝ) × (Fin nx → ℝ)} (h : Relinearises cb nl pts) : StateFree cb := fun s s' u => by
  rw [h.dynamics, h.dynamics, h.observation, h.observation]
  exact ⟨rfl, rfl⟩

theorem Relinearises.stepOf {cb : MCallbacks nx ny Inp} {nl : Inp → NStep nx ny}
    {pts : Inp → (Fin nx → ℝ) × (Fin nx → ℝ)} (h : Relinearises cb nl pts) (s : Inp → LState nx Inp) (u : Inp) :
    Kalman.stepOf (linearisedAt cb s) u = linStep (nl u) (pts u).1 (pts u).2 := by
  simp only [Kalman.stepOf, linearisedAt, h.dynamics, h.observation]
  rfl

theorem Relinearises.steps {cb : MCallbacks nx ny Inp} {nl : Inp → NStep nx ny}
    {pts : Inp → (Fin nx → ℝ) × (Fin nx → ℝ)} (h : Relinearises cb nl pts) (s : Inp → LState nx Inp) :
    ∀ (us : List Inp) (x : ℕ → Fin nx → ℝ), (∀ (t : ℕ) u, us[t]? = some u → pts u = (x t, x (t + 1))) →
      us.map (Kalman.stepOf (linearisedAt cb s)) = linSteps (us.map nl) x
  | [], _, _ => rfl
  | u :: us, x, hx => by
    rw [List.map_cons, List.map_cons, linSteps, h.stepOf, hx 0 u rfl,
      h.steps s us (fun k => x (k + 1)) fun t v hv => hx (t + 1) v hv]

/-- **C92.** Filter and smooth a nonlinear model with the moments methods, linearising along a given trajectory `x`.
Writing `m` for the smoothed means and `ℓ` for the exact log posterior density of the nonlinear model as a function
of the whole trajectory: the direction from `x` to `m` is never one of descent of `ℓ`; its slope is zero only if
`m = x`; and `m = x` exactly when `x` is a stationary point of `ℓ`. -/
theorem moments_smoother_gauss_newton (qr : QR) (D : Dummies nx) (cb : MCallbacks nx ny Inp)
    (nl : Inp → NStep nx ny) (pts : Inp → (Fin nx → ℝ) × (Fin nx → ℝ)) (h : Relinearises cb nl pts)
    (rng rng' : Prng K) (u₀ : Inp) (us : List Inp) (hus : us ≠ []) (associative parallel parallel' : Bool)
    (hpar : associative = true ∨ parallel = false) (key key' : Option K) (opts : SmootherOpts nx Inp)
    (x : ℕ → Fin nx → ℝ) (hx : ∀ (t : ℕ) u, us[t]? = some u → pts u = (x t, x (t + 1)))
    (hs : SmoothAlong (us.map nl) x)
    (hP0 : ((cb.getInit u₀).2 * ((cb.getInit u₀).2)ᵀ).det ≠ 0)
    (hQ : ∀ u ∈ us, ((nl u).cholQ * ((nl u).cholQ)ᵀ).det ≠ 0) (hR : ∀ u ∈ us, (nl u).R.det ≠ 0) :
    ∃ fs states m, (filter rng (buildMomentsFilter qr D cb associative) (u₀ :: us) parallel key).result = .ok fs ∧
      (smoother rng' LState.modelInputs (fun u => .ok (opts.dummy u))
        (buildMomentsSmoother qr cb.getDynamics opts) fs (some us) parallel' key').result = .ok states ∧
      (∀ t ≤ us.length, ∃ s, states[t]? = some s ∧ s.mean = some (m t)) ∧
      (∀ v, LineDifferentiableAt ℝ (nlLogDensity (cb.getInit u₀).1 (cb.getInit u₀).2 (us.map nl)) x v) ∧
      0 ≤ lineDeriv ℝ (nlLogDensity (cb.getInit u₀).1 (cb.getInit u₀).2 (us.map nl)) x (m - x) ∧
      (lineDeriv ℝ (nlLogDensity (cb.getInit u₀).1 (cb.getInit u₀).2 (us.map nl)) x (m - x) = 0 →
        ∀ t ≤ us.length, m t = x t) ∧
      ((∀ t ≤ us.length, m t = x t) ↔
        ∀ v, lineDeriv ℝ (nlLogDensity (cb.getInit u₀).1 (cb.getInit u₀).2 (us.map nl)) x v = 0) := by
  have hR' : ∀ u ∈ us, (Kalman.stepOf (linearisedAt cb (dummyState D)) u).R.det ≠ 0 := by
    intro u hu
    rw [h.stepOf]
    exact hR u hu
  have hQ' : ∀ u ∈ us, ((Kalman.stepOf (linearisedAt cb (dummyState D)) u).cholQ *
      ((Kalman.stepOf (linearisedAt cb (dummyState D)) u).cholQ)ᵀ).det ≠ 0 := by
    intro u hu
    rw [h.stepOf]
    exact hQ u hu
  obtain ⟨fs, fs', p', h1, h2, h3⟩ := moments_smoothing_is_linearised qr D cb h.stateFree rng rng' u₀ us associative
    parallel parallel' hpar key key' opts hR'
  obtain ⟨states', m, h4, h5, h6⟩ := kalman_smoother_map qr rng rng' (linearisedAt cb (dummyState D)) u₀ us hus p'
    parallel' key key' opts hR' hP0 hQ' fs' h2 (some us) (.inr (.inl rfl))
  rw [h4] at h3
  cases hr : (smoother rng' LState.modelInputs (fun u => .ok (opts.dummy u))
      (buildMomentsSmoother qr cb.getDynamics opts) fs (some us) parallel' key').result with
  | error e => rw [hr] at h3; cases h3
  | ok states =>
    rw [hr] at h3
    simp only [Except.map, Except.ok.injEq] at h3
    rw [h.steps (dummyState D) us x hx] at h6
    have h7 := linearised_max_ascent (cb.getInit u₀).1 (cb.getInit u₀).2 (us.map nl) x m hs us.length h6
      fun x' hx' => by
        rw [pathLogDensity, pathLogDensity, hx' 0 (Nat.zero_le _), logDensityFrom_congr _ x' m fun t ht => hx' t (by
          rw [linSteps_length, List.length_map] at ht
          exact ht)]
    obtain ⟨a1, a2, a3, a4⟩ := h7
    refine ⟨fs, states, m, h1, hr, fun t ht => ?_, a1, a2, fun hz t ht => (a3 hz t ht).symm,
      ⟨fun hm => a4 fun t ht => (hm t ht).symm, fun hz t ht => (a3 (hz _) t ht).symm⟩⟩
    obtain ⟨s', hs', hm'⟩ := h5 t ht
    have h8 := congrArg (fun l => l[t]?) h3
    simp only [List.getElem?_map, hs', Option.map_some] at h8
    cases hst : states[t]? with
    | none => rw [hst] at h8; cases h8
    | some s =>
      rw [hst, Option.map_some, Option.some.injEq] at h8
      exact ⟨s, rfl, by rw [← hm']; exact congrArg Prod.fst h8⟩

/-- A nonlinear model: `x_t = sin x_{t-1} + w_t`, `y_t = x_t ^ 2 + v_t`. The inputs carry the observation and the two
linearisation points. -/
def sineStep (u : ℝ × ℝ × ℝ) : NStep 1 1 := ⟨fun x i => Real.sin (x i), 1, fun x i => x i ^ 2, 1, fun _ => some u.1⟩

/-- Its callbacks. -/
def sineCallbacks : MCallbacks 1 1 (ℝ × ℝ × ℝ) where
  getInit _ := (0, 1)
  getDynamics _ u := (fun x => ((sineStep u).f x, (sineStep u).cholQ), fun _ => u.2.1)
  getObservation _ u := (fun x => ((sineStep u).h x, (sineStep u).cholR), fun _ => u.2.2, (sineStep u).y)

theorem sine_smooth (us : List (ℝ × ℝ × ℝ)) : ∀ x : ℕ → Fin 1 → ℝ, SmoothAlong (us.map sineStep) x := by
  induction us with
  | nil => exact fun _ => trivial
  | cons u us ih =>
    refine fun x => ⟨?_, ?_, ih _⟩
    · exact differentiableAt_pi.mpr fun i => (differentiableAt_apply i (x 0)).sin
    · exact differentiableAt_pi.mpr fun i => (differentiableAt_apply i (x 1)).pow 2

/-- Non-vacuity for C92: the model above, with any observations `y` and any trajectory `x`, of any length. -/
example (qr : QR) (D : Dummies 1) (rng : Prng K) (y x : ℕ → ℝ) (n : ℕ) (parallel parallel' : Bool) (key : Option K)
    (opts : SmootherOpts 1 (ℝ × ℝ × ℝ)) :
    ∃ fs states, ∃ m : ℕ → Fin 1 → ℝ, (filter rng (buildMomentsFilter qr D sineCallbacks true)
        ((0, 0, 0) :: (List.range (n + 1)).map fun t => (y t, x t, x (t + 1))) parallel key).result = .ok fs ∧
      (smoother rng LState.modelInputs (fun u => .ok (opts.dummy u))
        (buildMomentsSmoother qr sineCallbacks.getDynamics opts) fs
        (some ((List.range (n + 1)).map fun t => (y t, x t, x (t + 1)))) parallel' key).result = .ok states ∧
      (∀ t ≤ n + 1, ∃ s, states[t]? = some s ∧ s.mean = some (m t)) ∧
      0 ≤ lineDeriv ℝ (nlLogDensity (0 : Fin 1 → ℝ) 1
        (((List.range (n + 1)).map fun t => (y t, x t, x (t + 1))).map sineStep)) (fun t _ => x t)
        (m - fun t _ => x t) := by
  have hR : ∀ u, (sineStep u).R.det ≠ 0 := by
    intro u
    have h1 : obsL (sineStep u).y (sineStep u).cholR * (obsL (sineStep u).y (sineStep u).cholR)ᵀ = 1 := by
      ext i j
      obtain ⟨i, hi⟩ := i
      obtain ⟨j, hj⟩ := j
      obtain rfl : i = j := Subsingleton.elim _ _
      obtain rfl : i = 0 := Subsingleton.elim _ _
      rw [Matrix.mul_apply, Fin.sum_univ_one, Matrix.one_apply_eq]
      change (1 : Matrix (Fin 1) (Fin 1) ℝ) 0 0 * (1 : Matrix (Fin 1) (Fin 1) ℝ) 0 0 = 1
      rw [Matrix.one_apply_eq, one_mul]
    rw [NStep.R, h1, Matrix.det_one]
    exact one_ne_zero
  obtain ⟨fs, states, m, h1, h2, h3, -, h4, -⟩ := moments_smoother_gauss_newton qr D sineCallbacks sineStep
    (fun u => (fun _ => u.2.1, fun _ => u.2.2)) ⟨fun _ _ => rfl, fun _ _ => rfl⟩ rng rng (0, 0, 0)
    ((List.range (n + 1)).map fun t => (y t, x t, x (t + 1))) (by simp) true parallel parallel' (.inl rfl) key key opts
    (fun t _ => x t) (fun t u hu => by
      rw [List.getElem?_map, Option.map_eq_some_iff] at hu
      obtain ⟨t', ht', rfl⟩ := hu
      obtain ⟨h5, h6⟩ := List.getElem?_eq_some_iff.mp ht'
      rw [List.getElem_range] at h6
      subst h6
      rfl) (sine_smooth _ _) (by simp [sineCallbacks]) (fun u _ => by simp [sineStep]) fun u _ => hR u
  exact ⟨fs, states, m, h1, h2, by simpa using h3, h4⟩

end

end Cuthbert.Linearize
