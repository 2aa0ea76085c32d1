import Verif.Props.TaylorFilter
import Verif.Props.KalmanRoots

/-!
# Theorems about the moments and Taylor smoothers (C65, C66)
-/

namespace Cuthbert

/-! ## Two smoothers seen through a common view -/

section
variable {Inp K S S' Q Q' V : Type*}

/-- Two smoothers whose combinations agree through a view return the same views if the prepared and
converted states do, in both modes. -/
theorem smoother_view (rng rng' : Prng K) (inputsOf : S → Inp) (inputsOf' : S' → Inp)
    (dummy : Inp → Except Err Inp) (s : SmootherObj Inp K S Q) (s' : SmootherObj Inp K S' Q') (v : Q → V)
    (v' : Q' → V) (op : V → V → V) (hv : ∀ a b, v (s.smootherCombine a b) = op (v a) (v b))
    (hv' : ∀ a b, v' (s'.smootherCombine a b) = op (v' a) (v' b)) (fs : List S) (fs' : List S')
    (inputs : List Inp) (hlen : inputs.length + 1 = fs.length) (hlen' : inputs.length + 1 = fs'.length)
    (hprep : ∀ (t : ℕ) x x' u, fs[t]? = some x → fs'[t]? = some x' → inputs[t]? = some u → ∀ k k',
      v (s.smootherPrepare x u k) = v' (s'.smootherPrepare x' u k'))
    (hconv : ∀ x x', fs.getLast? = some x → fs'.getLast? = some x' → ∀ d k k',
      v (s.convert x d k) = v' (s'.convert x' d k'))
    (parallel : Bool) (key key' : Option K) :
    (smoother rng inputsOf dummy s fs (some inputs) parallel key).result.map (List.map v) =
      (smoother rng' inputsOf' dummy s' fs' (some inputs) parallel key').result.map (List.map v') := by
  rw [smoother_core_eq _ _ _ _ _ _ hlen, smoother_core_eq _ _ _ _ _ _ hlen']
  have helems : (smootherElems rng s fs inputs key).map v = (smootherElems rng' s' fs' inputs key').map v' := by
    refine List.ext_getElem? fun t => ?_
    rw [List.getElem?_map, List.getElem?_map]
    rcases Nat.lt_or_ge t inputs.length with ht | ht
    · have hx : fs[t]? = some fs[t] := List.getElem?_eq_getElem (by omega)
      have hx' : fs'[t]? = some fs'[t] := List.getElem?_eq_getElem (by omega)
      have hu : inputs[t]? = some inputs[t] := List.getElem?_eq_getElem ht
      rw [smootherElems_get rng _ fs inputs key hlen t _ _ hx hu,
        smootherElems_get rng' _ fs' inputs key' hlen' t _ _ hx' hu, Option.map_some, Option.map_some]
      exact congrArg some (hprep t _ _ _ hx hx' hu _ _)
    · rw [List.getElem?_eq_none (by rw [smootherElems_length _ _ _ _ _ hlen]; omega),
        List.getElem?_eq_none (by rw [smootherElems_length _ _ _ _ _ hlen']; omega)]
      rfl
  obtain ⟨xT, hxT⟩ : ∃ x, fs.getLast? = some x :=
    ⟨_, List.getLast?_eq_some_getLast (by intro e; subst e; simp at hlen)⟩
  obtain ⟨xT', hxT'⟩ : ∃ x, fs'.getLast? = some x :=
    ⟨_, List.getLast?_eq_some_getLast (by intro e; subst e; simp at hlen')⟩
  simp only [smootherCore, hxT, hxT']
  cases hin : inputs[0]? with
  | none => rfl
  | some u =>
    simp only
    cases hdu : dummy u with
    | error e => rfl
    | ok d =>
      simp only [Except.map, Except.ok.injEq]
      have hfin := hconv xT xT' hxT hxT' d (keyAt rng key fs.length 0) (keyAt rng' key' fs'.length 0)
      obtain ⟨c, hc⟩ : ∃ c, c = s.convert xT d (keyAt rng key fs.length 0) := ⟨_, rfl⟩
      obtain ⟨c', hc'⟩ : ∃ c, c = s'.convert xT' d (keyAt rng' key' fs'.length 0) := ⟨_, rfl⟩
      rw [← hc, ← hc'] at hfin
      rw [← hc, ← hc']
      cases parallel with
      | false =>
        have h1 := Kalman.backFold_map s.smootherCombine op v hv c (smootherElems rng s fs inputs key)
        have h2 := Kalman.backFold_map s'.smootherCombine op v' hv' c' (smootherElems rng' s' fs' inputs key')
        exact h1.trans (by rw [hfin, helems, ← h2]; rfl)
      | true =>
        simp only [if_true, associativeScanRev, List.map_reverse]
        congr 1
        have h1 := (associativeScan_map (fun c n => s.smootherCombine n c) (fun c n => op n c) v
          (fun _ => True) (fun _ _ _ _ => trivial) (fun a b _ _ => hv b a)
          (smootherElems rng s fs inputs key ++ [c]).reverse (fun _ _ => trivial)).1
        have h2 := (associativeScan_map (fun c n => s'.smootherCombine n c) (fun c n => op n c) v'
          (fun _ => True) (fun _ _ _ _ => trivial) (fun a b _ _ => hv' b a)
          (smootherElems rng' s' fs' inputs key' ++ [c']).reverse (fun _ _ => trivial)).1
        refine h1.trans (Eq.trans ?_ h2.symm)
        rw [List.map_reverse, List.map_reverse, List.map_append, List.map_append, helems,
          List.map_singleton, List.map_singleton, hfin]

end

namespace Linearize
open MeasureTheory ProbabilityTheory Matrix Cuthbert Cuthbert.Spec Kalman
open scoped ENNReal

noncomputable section

set_option linter.unusedSectionVars false

variable {nx ny n : ℕ} {Inp K : Type*}

/-! ## Specification -/

/-- The dynamics of a linear-Gaussian model: `F`, `c` and a factor of `Q`. -/
abbrev LinDyn (nx : ℕ) (Inp : Type*) :=
  Inp → Matrix (Fin nx) (Fin nx) ℝ × (Fin nx → ℝ) × Matrix (Fin nx) (Fin nx) ℝ

/-- The conditional moments of the transition are those of `dyn`, whatever the linearisation points. -/
def AffineDynamics (getDynamics : LState nx Inp → Inp → MomentsFn nx nx × (Fin nx → ℝ))
    (dyn : LinDyn nx Inp) : Prop :=
  ∀ s u x, (getDynamics s u).1 x = ((dyn u).1 *ᵥ x + (dyn u).2.1, (dyn u).2.2)

/-- The transition density is that of `dyn`, with finite linearisation points. -/
def GaussianDynamics (rtol : ℝ)
    (getDynamics : LState nx Inp → Inp → CondDensity nx nx × (Fin nx → Option ℝ) × (Fin nx → Option ℝ))
    (dyn : LinDyn nx Inp) : Prop :=
  ∀ s u, ∃ (p : CondDensity nx nx) (xPrev xCurr : Fin nx → ℝ),
    getDynamics s u = (p, fun i => some (xPrev i), fun i => some (xCurr i)) ∧
    IsGaussianTransition rtol p (dyn u).1 (dyn u).2.1 ((dyn u).2.2 * ((dyn u).2.2)ᵀ)

/-- The same means and covariances. -/
def SameMoments (fs : List (LState nx Inp)) (fs' : List (FilterState nx Inp)) : Prop :=
  fs.map (fun s => (s.mean, s.cholCov.map fun L => L * Lᵀ)) =
    fs'.map (fun s => (s.mean, s.cholCov.map fun L => L * Lᵀ))

/-- What a smoother state says, up to the choice of square roots. -/
def smoothView (s : SmootherState nx Inp) :=
  (s.mean, s.cholCov.map (fun L => L * Lᵀ), s.gain, s.cholCovGivenNext.map (Option.map fun D => D * Dᵀ))

theorem smoothView_eq (s : SmootherState nx Inp) : smoothView s =
    ((sRoot s).1.map (·.g), (sRoot s).1.map (·.C), (sRoot s).2.1, (sRoot s).2.2) := by
  simp only [smoothView, sRoot, SmootherState.mean, SmootherState.cholCov, Option.map_map]
  cases s.elem <;> rfl

theorem map_smoothView (r : Except Err (List (SmootherState nx Inp))) : r.map (List.map smoothView) =
    (r.map (List.map sRoot)).map (List.map fun v => (v.1.map (·.g), v.1.map (·.C), v.2.1, v.2.2)) := by
  cases r with
  | error e => rfl
  | ok l =>
    simp only [Except.map, List.map_map, Except.ok.injEq]
    exact List.map_congr_left fun s _ => smoothView_eq s

theorem SameMoments.get {fs : List (LState nx Inp)} {fs' : List (FilterState nx Inp)} (h : SameMoments fs fs')
    (t : ℕ) (x : LState nx Inp) (x' : FilterState nx Inp) (hx : fs[t]? = some x) (hx' : fs'[t]? = some x') :
    x'.mean = x.toFilter.mean ∧
      x'.cholCov.map (fun L => L * Lᵀ) = x.toFilter.cholCov.map (fun L => L * Lᵀ) := by
  have h1 := congrArg (fun l => l[t]?) h
  simp only [List.getElem?_map, hx, hx', Option.map_some, Option.some.injEq, Prod.mk.injEq] at h1
  exact ⟨h1.1.symm, h1.2.symm⟩

/-- The state built by the linearised smoothers is the one built by the Kalman smoother. -/
theorem smootherStateOf_some (qr : QR) (opts : SmootherOpts nx Inp) (s : LState nx Inp) (u : Inp)
    (p : Matrix (Fin nx) (Fin nx) ℝ × (Fin nx → ℝ) × Matrix (Fin nx) (Fin nx) ℝ) :
    smootherStateOf qr opts s u (some p) = smootherPrepare qr (fun _ => p) opts s.toFilter u := by
  simp only [smootherStateOf, smootherPrepare, LState.mean, LState.cholCov, Option.bind_some,
    Option.bind_eq_bind]

/-- A smoother on linearised states whose prepared states come from the transition `dyn`. -/
theorem linearized_smoother_is_kalman (qr qr' : QR) (rng rng' : Prng K) (inputsOf : LState nx Inp → Inp)
    (inputsOf' : FilterState nx Inp → Inp) (dummy : Inp → Except Err Inp) (dyn : LinDyn nx Inp)
    (opts : SmootherOpts nx Inp) (s : SmootherObj Inp K (LState nx Inp) (SmootherState nx Inp))
    (hconv : ∀ x u k, s.convert x u k = convert opts x.toFilter u)
    (hprep : ∀ x u k, ∃ L, L * Lᵀ = (dyn u).2.2 * ((dyn u).2.2)ᵀ ∧
      s.smootherPrepare x u k = smootherStateOf qr opts x u (some ((dyn u).1, (dyn u).2.1, L)))
    (hcomb : s.smootherCombine = smootherCombine qr) (fs : List (LState nx Inp))
    (fs' : List (FilterState nx Inp)) (hfs : SameMoments fs fs') (inputs : List Inp)
    (hlen : inputs.length + 1 = fs.length) (parallel : Bool) (key key' : Option K) :
    (smoother rng inputsOf dummy s fs (some inputs) parallel key).result.map (List.map smoothView) =
      (smoother rng' inputsOf' dummy (buildSmoother qr' dyn opts) fs' (some inputs) parallel
        key').result.map (List.map smoothView) := by
  have hlen' : inputs.length + 1 = fs'.length := by
    have := congrArg List.length hfs
    simp only [List.length_map] at this
    omega
  rw [map_smoothView, map_smoothView]
  congr 1
  refine smoother_view rng rng' inputsOf inputsOf' dummy s (buildSmoother qr' dyn opts) sRoot sRoot sRootOp
    (fun a b => by rw [hcomb]; exact sRoot_combine qr a b) (fun a b => sRoot_combine qr' a b) fs fs' inputs
    hlen hlen' (fun t x x' u hx hx' hu k k' => ?_) (fun x x' hx hx' d k k' => ?_) parallel key key'
  · obtain ⟨L, hL, he⟩ := hprep x u k
    obtain ⟨h1, h2⟩ := hfs.get t x x' hx hx'
    rw [he, smootherStateOf_some]
    exact (sRoot_prepare qr qr' (fun _ => ((dyn u).1, (dyn u).2.1, L)) (fun _ => dyn u) (fun _ => rfl)
      (fun _ => rfl) (fun _ => hL) opts _ _ u h1 h2)
  · rw [List.getLast?_eq_getElem?] at hx hx'
    rw [show fs'.length - 1 = fs.length - 1 by omega] at hx'
    obtain ⟨h1, h2⟩ := hfs.get _ x x' hx hx'
    rw [hconv]
    exact sRoot_convert opts _ _ d h1 h2

/-! ## C65 -/

theorem AffineDynamics.linearize {getDynamics : LState nx Inp → Inp → MomentsFn nx nx × (Fin nx → ℝ)}
    {dyn : LinDyn nx Inp} (h : AffineDynamics getDynamics dyn) (s : LState nx Inp) (u : Inp) :
    linearizeMoments (getDynamics s u).1 (getDynamics s u).2 = dyn u := by
  rw [linearize_moments_affine _ (dyn u).1 (dyn u).2.1 (fun x => by rw [h]), h]

theorem GaussianDynamics.linearize {rtol : ℝ}
    {getDynamics : LState nx Inp → Inp → CondDensity nx nx × (Fin nx → Option ℝ) × (Fin nx → Option ℝ)}
    {dyn : LinDyn nx Inp} (h : GaussianDynamics rtol getDynamics dyn) (qr : QR) (svd : SVD) (hr : 0 ≤ rtol)
    (ign : Bool) (opts : SmootherOpts nx Inp) (s : LState nx Inp) (u : Inp) (k : Option K) :
    ∃ L, L * Lᵀ = (dyn u).2.2 * ((dyn u).2.2)ᵀ ∧
      (buildTaylorSmoother qr svd rtol ign getDynamics opts).smootherPrepare s u k =
        smootherStateOf qr opts s u (some ((dyn u).1, (dyn u).2.1, L)) := by
  obtain ⟨p, xp, xc, he, hp⟩ := h s u
  obtain ⟨L, -, hL, hlin⟩ := hp.linearize qr svd hr ign xp xc
  refine ⟨L, hL, ?_⟩
  simp only [buildTaylorSmoother, he]
  rw [hlin]
  simp only []
  rw [finite_some _ (dyn u).1 fun _ _ => rfl, finiteVec_some _ (dyn u).2.1 fun _ => rfl,
    finite_some _ L fun _ _ => rfl]
  rfl

/-- **C65** (moments). For affine conditional means and constant noise, the moments smoother run on filter
states gives the smoothing means, covariances, gains and conditional covariances that the Kalman smoother gives
on any Kalman filter states with the same means and covariances, in both modes, NaNs included. -/
theorem moments_smoother_is_kalman (qr qr' : QR) (rng rng' : Prng K) (inputsOf : LState nx Inp → Inp)
    (inputsOf' : FilterState nx Inp → Inp) (dummy : Inp → Except Err Inp)
    (getDynamics : LState nx Inp → Inp → MomentsFn nx nx × (Fin nx → ℝ)) (dyn : LinDyn nx Inp)
    (h : AffineDynamics getDynamics dyn) (opts : SmootherOpts nx Inp) (fs : List (LState nx Inp))
    (fs' : List (FilterState nx Inp)) (hfs : SameMoments fs fs') (inputs : List Inp)
    (hlen : inputs.length + 1 = fs.length) (parallel : Bool) (key key' : Option K) :
    (smoother rng inputsOf dummy (buildMomentsSmoother qr getDynamics opts) fs (some inputs) parallel
        key).result.map (List.map smoothView) =
      (smoother rng' inputsOf' dummy (buildSmoother qr' dyn opts) fs' (some inputs) parallel
        key').result.map (List.map smoothView) :=
  linearized_smoother_is_kalman qr qr' rng rng' inputsOf inputsOf' dummy dyn opts _ (fun _ _ _ => rfl)
    (fun x u k => ⟨(dyn u).2.2, rfl, by simp only [buildMomentsSmoother, h.linearize]⟩) rfl fs fs' hfs inputs
    hlen parallel key key'

/-- **C65** (Taylor). The same for the Taylor smoother when the transition densities are Gaussian, whatever the
linearisation points, provided they are finite. -/
theorem taylor_smoother_is_kalman (qr qr' : QR) (svd : SVD) (rng rng' : Prng K)
    (inputsOf : LState nx Inp → Inp) (inputsOf' : FilterState nx Inp → Inp) (dummy : Inp → Except Err Inp)
    (rtol : ℝ) (hr : 0 ≤ rtol) (ign : Bool)
    (getDynamics : LState nx Inp → Inp → CondDensity nx nx × (Fin nx → Option ℝ) × (Fin nx → Option ℝ))
    (dyn : LinDyn nx Inp) (h : GaussianDynamics rtol getDynamics dyn) (opts : SmootherOpts nx Inp)
    (fs : List (LState nx Inp)) (fs' : List (FilterState nx Inp)) (hfs : SameMoments fs fs')
    (inputs : List Inp) (hlen : inputs.length + 1 = fs.length) (parallel : Bool) (key key' : Option K) :
    (smoother rng inputsOf dummy (buildTaylorSmoother qr svd rtol ign getDynamics opts) fs (some inputs)
        parallel key).result.map (List.map smoothView) =
      (smoother rng' inputsOf' dummy (buildSmoother qr' dyn opts) fs' (some inputs) parallel
        key').result.map (List.map smoothView) :=
  linearized_smoother_is_kalman qr qr' rng rng' inputsOf inputsOf' dummy dyn opts _ (fun _ _ _ => rfl)
    (fun x u k => h.linearize qr svd hr ign opts x u k) rfl fs fs' hfs inputs hlen parallel key key'

/-- The smoothing law, read off a view that agrees with the Kalman smoother's. -/
theorem smoothing_exact_of_view (qr : QR) (rng rng' : Prng K) (lg : Callbacks nx ny Inp) (u₀ : Inp)
    (us : List Inp) (hus : us ≠ []) (parallel' : Bool) (key key' : Option K) (opts : SmootherOpts nx Inp)
    (hR : ∀ u ∈ us, (stepOf lg u).R.det ≠ 0)
    (hQ : ∀ u ∈ us, ((stepOf lg u).cholQ * ((stepOf lg u).cholQ)ᵀ).det ≠ 0)
    (fs : List (FilterState nx Inp)) (parallel : Bool)
    (hf : (filter rng (buildFilter qr lg) (u₀ :: us) parallel key).result = .ok fs)
    (r : Except Err (List (SmootherState nx Inp)))
    (hr : r.map (List.map smoothView) = (smoother rng' FilterState.modelInputs
      (fun u => .ok (opts.dummy u)) (buildSmoother qr lg.getDynamics opts) fs (some us) parallel'
        key').result.map (List.map smoothView)) :
    ∃ states l, r = .ok states ∧ states.length = us.length + 1 ∧
      ∀ t ≤ us.length, ∃ s m L, states[t]? = some s ∧ s.mean = some m ∧ s.cholCov = some L ∧
        ∀ φ : (Fin nx → ℝ) → ℝ≥0∞, Measurable φ →
          jointExp (lg.getInit u₀).1 (lg.getInit u₀).2 (us.map (stepOf lg)) (fun p => φ (p t)) =
            ENNReal.ofReal (Real.exp l) * ∫⁻ x, φ x ∂gauss m L := by
  obtain ⟨st', l, hst', hlen', hex, -⟩ := kalman_smoother_exact qr rng rng' lg u₀ us hus parallel parallel' key
    key' opts hR fs hf (fun t s L u _ _ hu => by
      have hu' := List.mem_of_getElem? hu
      have h1 : ((stepOf lg u).F * (L * Lᵀ) * ((stepOf lg u).F)ᵀ).PosSemidef := by
        rw [show (stepOf lg u).F * (L * Lᵀ) * ((stepOf lg u).F)ᵀ =
          ((stepOf lg u).F * L) * ((stepOf lg u).F * L)ᵀ by
            rw [Matrix.transpose_mul]; simp only [Matrix.mul_assoc]]
        have := Matrix.posSemidef_self_mul_conjTranspose ((stepOf lg u).F * L)
        rwa [Matrix.conjTranspose_eq_transpose_of_trivial] at this
      have h2 : ((stepOf lg u).cholQ * ((stepOf lg u).cholQ)ᵀ).PosSemidef := by
        have := Matrix.posSemidef_self_mul_conjTranspose (stepOf lg u).cholQ
        rwa [Matrix.conjTranspose_eq_transpose_of_trivial] at this
      have h3 : ((stepOf lg u).cholQ * ((stepOf lg u).cholQ)ᵀ).PosDef :=
        h2.posDef_iff_isUnit.mpr ((Matrix.isUnit_iff_isUnit_det _).mpr (hQ u hu').isUnit)
      exact (Matrix.PosDef.posSemidef_add h1 h3).det_pos.ne') (some us) (Or.inr (Or.inl rfl))
  rw [hst'] at hr
  cases r with
  | error e => cases hr
  | ok states =>
    simp only [Except.map, Except.ok.injEq] at hr
    have hl : states.length = us.length + 1 := by
      have := congrArg List.length hr
      simpa [hlen'] using this
    refine ⟨states, l, rfl, hl, fun t ht => ?_⟩
    obtain ⟨s', m, L', hs', hm', hL', hφ⟩ := hex t ht
    have hs : states[t]? = some states[t] := List.getElem?_eq_getElem (by omega)
    have h1 := congrArg (fun l => l[t]?) hr
    simp only [List.getElem?_map, hs, hs', Option.map_some, Option.some.injEq, smoothView, Prod.mk.injEq] at h1
    obtain ⟨hm, hC, -, -⟩ := h1
    rw [hm'] at hm
    rw [hL'] at hC
    cases hL : states[t].cholCov with
    | none => rw [hL] at hC; cases hC
    | some L =>
      rw [hL] at hC
      refine ⟨states[t], m, L, hs, hm, hL, fun φ hm => ?_⟩
      rw [hφ φ hm, gauss_eq_of_gram m L L' (Option.some.inj hC)]

theorem SameLaws.sameMoments {fs : List (LState nx Inp)} {fs' : List (FilterState nx Inp)}
    (h : SameLaws fs fs') : SameMoments fs fs' := by
  obtain ⟨hl, h⟩ := h
  refine List.ext_getElem? fun t => ?_
  rw [List.getElem?_map, List.getElem?_map]
  rcases Nat.lt_or_ge t fs.length with ht | ht
  · have hx : fs[t]? = some fs[t] := List.getElem?_eq_getElem ht
    have hx' : fs'[t]? = some fs'[t] := List.getElem?_eq_getElem (by omega)
    obtain ⟨m, L, L', l, h1, h2, h3, h4, h5, -⟩ := h t _ _ hx hx'
    rw [hx, hx', Option.map_some, Option.map_some, h1, h2, h3, h4, Option.map_some, Option.map_some, h5]
  · rw [List.getElem?_eq_none ht, List.getElem?_eq_none (by omega)]
    rfl

/-- **C65** (moments, exactness). For a linear-Gaussian model with nonsingular observed noise and transition
noise, running either variant of the moments filter and then the moments smoother, in either mode, gives the
exact smoothing laws. -/
theorem moments_smoothing_exact (qr : QR) (D : Dummies nx) (cb : MCallbacks nx ny Inp)
    (lg : Callbacks nx ny Inp) (h : AffineMoments cb lg) (rng rng' : Prng K) (u₀ : Inp) (us : List Inp)
    (hus : us ≠ []) (associative parallel parallel' : Bool) (hpar : associative = true ∨ parallel = false)
    (key key' : Option K) (opts : SmootherOpts nx Inp) (hR : ∀ u ∈ us, (stepOf lg u).R.det ≠ 0)
    (hQ : ∀ u ∈ us, ((stepOf lg u).cholQ * ((stepOf lg u).cholQ)ᵀ).det ≠ 0)
    (hlow : IsLower (lg.getInit u₀).2) :
    ∃ fs states l, (filter rng (buildMomentsFilter qr D cb associative) (u₀ :: us) parallel key).result = .ok fs ∧
      (smoother rng' LState.modelInputs (fun u => .ok (opts.dummy u))
        (buildMomentsSmoother qr cb.getDynamics opts) fs (some us) parallel' key').result = .ok states ∧
      states.length = us.length + 1 ∧
      ∀ t ≤ us.length, ∃ s m L, states[t]? = some s ∧ s.mean = some m ∧ s.cholCov = some L ∧
        ∀ φ : (Fin nx → ℝ) → ℝ≥0∞, Measurable φ →
          jointExp (lg.getInit u₀).1 (lg.getInit u₀).2 (us.map (stepOf lg)) (fun p => φ (p t)) =
            ENNReal.ofReal (Real.exp l) * ∫⁻ x, φ x ∂gauss m L := by
  have hdyn : AffineDynamics cb.getDynamics lg.getDynamics := h.dynamics
  obtain ⟨fs, fs', p', h1, h2, h3⟩ : ∃ fs fs' p',
      (filter rng (buildMomentsFilter qr D cb associative) (u₀ :: us) parallel key).result = .ok fs ∧
      (filter rng (buildFilter qr lg) (u₀ :: us) p' key).result = .ok fs' ∧ SameMoments fs fs' := by
    cases associative with
    | true =>
      obtain ⟨fs', h2, -⟩ := kalman_run qr rng lg u₀ us parallel key hR
      have h3 := h2
      rw [← moments_associative_is_kalman qr D cb lg h] at h3
      cases hr : (filter rng (buildMomentsFilter qr D cb true) (u₀ :: us) parallel key).result with
      | error e => rw [hr] at h3; cases h3
      | ok fs =>
        rw [hr] at h3
        simp only [Except.map, Except.ok.injEq] at h3
        refine ⟨fs, fs', parallel, rfl, h2, ?_⟩
        rw [SameMoments, ← h3, List.map_map]
        rfl
    | false =>
      obtain rfl : parallel = false := hpar.resolve_left (by simp)
      obtain ⟨fs, fs', h1, h2, h3⟩ := moments_non_associative_is_kalman qr D cb lg h rng u₀ us false key key hR hlow
      exact ⟨fs, fs', false, h1, h2, h3.sameMoments⟩
  have hlen : us.length + 1 = fs.length := by
    have e1 := congrArg List.length h3
    have e2 := (filter_run_facts qr rng lg u₀ us p' key (fun u hu => ScanOk.of_R _ (hR u hu)) fs' h2).1
    simp only [List.length_map] at e1
    omega
  obtain ⟨states, l, h4, h5, h6⟩ := smoothing_exact_of_view qr rng rng' lg u₀ us hus parallel' key key' opts hR hQ fs'
    p' h2 _ (moments_smoother_is_kalman qr qr rng' rng' LState.modelInputs FilterState.modelInputs
      (fun u => .ok (opts.dummy u)) cb.getDynamics lg.getDynamics hdyn opts fs fs' h3 us hlen parallel' key' key')
  exact ⟨fs, states, l, h1, h4, h5, h6⟩

/-- **C65** (Taylor, exactness). If the log densities given to the Taylor filter and smoother are those of a
linear-Gaussian model with nonsingular observed noise, then running either variant of the filter and then the
smoother, in either mode, gives the exact smoothing laws. (The transition noise is nonsingular, being
well-conditioned.) -/
theorem taylor_smoothing_exact (qr : QR) (svd : SVD) (D : Dummies nx) (cb : TCallbacks nx ny Inp)
    (hr : 0 ≤ cb.rtol) (rng rng' : Prng K) (u₀ : Inp) (us : List Inp) (hus : us ≠ [])
    (associative parallel parallel' : Bool) (hpar : associative = true ∨ parallel = false) (key key' : Option K)
    (opts : SmootherOpts nx Inp) (lg : Callbacks nx n Inp)
    (h : Represented cb u₀ us (lg.getInit u₀).1 ((lg.getInit u₀).2 * ((lg.getInit u₀).2)ᵀ)
      fun u => (stepOf lg u).toFK) (hom : Homogeneous cb us)
    (hdyn : GaussianDynamics cb.rtol cb.getDynamics lg.getDynamics)
    (hR : ∀ u ∈ us, (stepOf lg u).R.det ≠ 0) (hlow : IsLower (lg.getInit u₀).2) :
    ∃ fs states l,
      (filter rng (buildTaylorFilter qr svd D cb associative) (u₀ :: us) parallel key).result = .ok fs ∧
      (smoother rng' LState.modelInputs (fun u => .ok (opts.dummy u))
        (buildTaylorSmoother qr svd cb.rtol cb.ignoreNanDims cb.getDynamics opts) fs (some us) parallel'
          key').result = .ok states ∧
      states.length = us.length + 1 ∧
      ∀ t ≤ us.length, ∃ s m L, states[t]? = some s ∧ s.mean = some m ∧ s.cholCov = some L ∧
        ∀ φ : (Fin nx → ℝ) → ℝ≥0∞, Measurable φ →
          jointExp (lg.getInit u₀).1 (lg.getInit u₀).2 (us.map (stepOf lg)) (fun p => φ (p t)) =
            ENNReal.ofReal (Real.exp l) * ∫⁻ x, φ x ∂gauss m L := by
  obtain ⟨fs, fs', h1, h2, hl, hl', h3⟩ := taylor_is_kalman qr qr svd D cb hr rng u₀ us associative parallel false hpar
    key key lg h hom hR hlow
  have hsame : SameMoments fs fs' := by
    refine List.ext_getElem? fun t => ?_
    rw [List.getElem?_map, List.getElem?_map]
    rcases Nat.lt_or_ge t fs.length with ht | ht
    · have hx : fs[t]? = some fs[t] := List.getElem?_eq_getElem ht
      have hx' : fs'[t]? = some fs'[t] := List.getElem?_eq_getElem (by omega)
      obtain ⟨m, L, L', h1, h2, h3, h4, h5, -⟩ := h3 t _ _ hx hx'
      rw [hx, hx', Option.map_some, Option.map_some, h1, h2, h3, h4, Option.map_some, Option.map_some, h5]
    · rw [List.getElem?_eq_none ht, List.getElem?_eq_none (by omega)]
      rfl
  have hQ : ∀ u ∈ us, ((stepOf lg u).cholQ * ((stepOf lg u).cholQ)ᵀ).det ≠ 0 := by
    intro u _
    obtain ⟨p, xp, xc, -, hp⟩ := hdyn (dummyState D u) u
    exact hp.cond.det_ne_zero
  obtain ⟨states, l, h4, h5, h6⟩ := smoothing_exact_of_view qr rng rng' lg u₀ us hus parallel' key key' opts hR hQ fs'
    false h2 _ (taylor_smoother_is_kalman qr qr svd rng' rng' LState.modelInputs FilterState.modelInputs
      (fun u => .ok (opts.dummy u)) cb.rtol hr cb.ignoreNanDims cb.getDynamics lg.getDynamics hdyn opts fs fs'
      hsame us hl.symm parallel' key' key')
  exact ⟨fs, states, l, h1, h4, h5, h6⟩

/-- Non-vacuity for `taylor_smoothing_exact`: every model with well-conditioned covariances has such callbacks,
for any choice of finite linearisation points. -/
theorem exists_gaussianDynamics (lg : Callbacks nx ny Inp) (rtol : ℝ)
    (hP : ∀ u, WellConditioned rtol ((lg.getInit u).2 * ((lg.getInit u).2)ᵀ))
    (hQ : ∀ u, WellConditioned rtol ((lg.getDynamics u).2.2 * ((lg.getDynamics u).2.2)ᵀ))
    (hR : ∀ u, WellConditioned rtol ((lg.getObservation u).2.2.1 * ((lg.getObservation u).2.2.1)ᵀ))
    (pts : LState nx Inp → Inp → Fin 4 → Fin nx → ℝ) :
    ∃ cb : TCallbacks nx ny Inp, cb.rtol = rtol ∧
      (∀ s u, (cb.getDynamics s u).2 = (fun i => some (pts s u 0 i), fun i => some (pts s u 1 i))) ∧
      GaussianDynamics cb.rtol cb.getDynamics lg.getDynamics ∧
      ∀ u₀ us, Represented cb u₀ us (lg.getInit u₀).1 ((lg.getInit u₀).2 * ((lg.getInit u₀).2)ᵀ)
        (fun u => (stepOf lg u).toFK) ∧ Homogeneous cb us := by
  choose pd hpdAD hpd using fun u => exists_gaussian_condDensity (lg.getDynamics u).1 (lg.getDynamics u).2.1
    ((lg.getDynamics u).2.2 * ((lg.getDynamics u).2.2)ᵀ)
  obtain ⟨cb, h1, h2, h3, h4⟩ := exists_represented lg rtol hP hQ hR pts
  have hg : ∀ u, IsGaussianTransition rtol (pd u) (lg.getDynamics u).1 (lg.getDynamics u).2.1
      ((lg.getDynamics u).2.2 * ((lg.getDynamics u).2.2)ᵀ) := fun u => by
    refine ⟨hpdAD u, hQ u, 0, fun x z => ?_⟩
    have h1 := hpd u (fun i => some (z i)) x (fun i => z i.1)
    have h2 : fillObs (fun i => some (z i)) (fun i : Obs (fun i => some (z i)) => z i.1) =
        fun i => some (z i) := by
      funext i; simp [fillObs]
    rw [h2] at h1
    rw [h1, ← gaussLogDensity_reindex (obsAll z)]; rfl
  refine ⟨{ cb with getDynamics := fun s u => (pd u, fun i => some (pts s u 0 i), fun i => some (pts s u 1 i)) },
    h1, fun _ _ => rfl, fun s u => ⟨_, _, _, rfl, ?_⟩, fun u₀ us => ⟨⟨?_, fun u _ s _ => ?_, ?_⟩, ?_⟩⟩
  · simp only [h1]; exact hg u
  · exact (h4 u₀ us).1.init
  · simp only [h1]
    exact DynamicsIs.transition _ _ _ _ _ _ (hg u)
  · exact (h4 u₀ us).1.observation
  · exact (h4 u₀ us).2

/-! ## C66: skipped predictions -/

/-- The prepared state of the Taylor smoother is NaN at a skipped prediction. -/
theorem taylor_smoother_prepare_skip (qr : QR) (svd : SVD) (rtol : ℝ) (ign : Bool)
    (getDynamics : LState nx Inp → Inp → CondDensity nx nx × (Fin nx → Option ℝ) × (Fin nx → Option ℝ))
    (opts : SmootherOpts nx Inp) (hn : 0 < nx) (s : LState nx Inp) (u : Inp) (p : CondDensity nx nx)
    (h : getDynamics s u = (p, fun _ => none, fun _ => none)) (k : Option K) :
    ((buildTaylorSmoother qr svd rtol ign getDynamics opts).smootherPrepare s u k).elem = none := by
  simp only [buildTaylorSmoother, h, smootherStateOf]
  have hc : finiteVec (linearizeLogDensity qr svd rtol ign p (fun _ => none) (fun _ => none)).2.1 = none := by
    rw [finiteVec, if_neg]
    intro hall
    have := hall ⟨0, hn⟩
    simp [linearizeLogDensity, linearizeGivenCholCov] at this
  rw [hc]
  cases s.mean with
  | none => rfl
  | some m =>
    cases s.cholCov with
    | none => rfl
    | some L =>
      simp only [Option.bind_some, Option.bind_eq_bind, Option.bind_none]
      cases finite (linearizeLogDensity qr svd rtol ign p (fun _ => none) (fun _ => none)).1 <;> rfl

/-- **C66** (negation). Where the callbacks ask for the prediction from `t` to `t + 1` to be skipped, which the
Taylor filter honours, the Taylor smoother returns NaN at all times up to `t`, in both modes, whatever the filter
states are. -/
theorem taylor_smoother_skip_nan (qr : QR) (svd : SVD) (rng : Prng K) (inputsOf : LState nx Inp → Inp)
    (dummy : Inp → Except Err Inp) (rtol : ℝ) (ign : Bool)
    (getDynamics : LState nx Inp → Inp → CondDensity nx nx × (Fin nx → Option ℝ) × (Fin nx → Option ℝ))
    (opts : SmootherOpts nx Inp) (hn : 0 < nx) (fs : List (LState nx Inp)) (inputs : List Inp)
    (hlen : inputs.length + 1 = fs.length) (parallel : Bool) (key : Option K) (t : ℕ) (u : Inp)
    (hu : inputs[t]? = some u)
    (h : ∀ s, ∃ p, getDynamics s u = (p, fun _ => none, fun _ => none)) (states : List (SmootherState nx Inp))
    (hst : (smoother rng inputsOf dummy (buildTaylorSmoother qr svd rtol ign getDynamics opts) fs (some inputs)
      parallel key).result = .ok states) :
    ∀ i ≤ t, ∃ s, states[i]? = some s ∧ s.mean = none ∧ s.cholCov = none := by
  have ht : t < inputs.length := (List.getElem?_eq_some_iff.mp hu).1
  obtain ⟨v, hv⟩ : ∃ v : SmootherState nx Inp → Bool, v = fun s => s.elem.isNone := ⟨_, rfl⟩
  have hop : ∀ a b : SmootherState nx Inp, v (smootherCombine qr a b) = (v a || v b) := by
    intro a b
    have := congrArg Prod.fst (sRoot_combine qr a b)
    simp only [sRoot, sRootOp] at this
    have h2 : v (smootherCombine qr a b) = ((smootherCombine qr a b).elem.map sForm).isNone := by
      rw [hv]; simp
    rw [h2, this, hv]
    simp only []
    cases a.elem <;> cases b.elem <;> rfl
  obtain ⟨seq, hseq, hvs⟩ : ∃ seq, (smoother rng inputsOf dummy
      (buildTaylorSmoother qr svd rtol ign getDynamics opts) fs (some inputs) false key).result = .ok seq ∧
      seq.map v = states.map v := by
    have hs : (smoother rng inputsOf dummy (buildTaylorSmoother qr svd rtol ign getDynamics opts) fs
        (some inputs) false key).result.map (List.map v) = .ok (states.map v) := by
      cases parallel with
      | false => rw [hst]; rfl
      | true =>
        have := smoother_parallel_agrees_on_view rng inputsOf dummy
          (buildTaylorSmoother qr svd rtol ign getDynamics opts) fs inputs hlen key (fun _ => True) v or
          (fun _ _ _ _ => trivial) (fun _ _ _ _ _ _ => trivial) (fun _ _ _ _ => trivial)
          (fun a b _ _ => hop a b) (fun a b c _ _ _ => Bool.or_assoc _ _ _)
        rw [← this, hst]; rfl
    cases hr : (smoother rng inputsOf dummy (buildTaylorSmoother qr svd rtol ign getDynamics opts) fs
        (some inputs) false key).result with
    | error e => rw [hr] at hs; cases hs
    | ok seq =>
      rw [hr] at hs
      simp only [Except.map, Except.ok.injEq] at hs
      exact ⟨seq, rfl, hs⟩
  obtain ⟨u1, hu1⟩ : ∃ u, inputs[0]? = some u := ⟨_, List.getElem?_eq_getElem (by omega)⟩
  obtain ⟨d, hd⟩ : ∃ d, dummy u1 = .ok d := by
    cases hdu : dummy u1 with
    | ok d => exact ⟨d, rfl⟩
    | error e =>
      rw [smoother_core_eq _ _ _ _ _ _ hlen] at hseq
      obtain ⟨xT, hxT⟩ : ∃ x, fs.getLast? = some x :=
        ⟨_, List.getLast?_eq_some_getLast (by intro e; subst e; simp at hlen)⟩
      simp only [smootherCore, hxT, hu1, hdu] at hseq
      cases hseq
  obtain ⟨seq', hseq', run⟩ := smoother_sequential_is_backward_run rng inputsOf dummy
    (buildTaylorSmoother qr svd rtol ign getDynamics opts) fs inputs key hlen u1 hu1 d hd
  rw [hseq, Except.ok.injEq] at hseq'
  subst hseq'
  have hl := run.length_eq
  have hfs : ∀ i : ℕ, i < inputs.length → ∃ x u s, fs[i]? = some x ∧ inputs[i]? = some u ∧
      seq[i + 1]? = some s := fun i hi =>
    ⟨_, _, _, List.getElem?_eq_getElem (by omega), List.getElem?_eq_getElem hi,
      List.getElem?_eq_getElem (by omega)⟩
  have main : ∀ j ≤ t, ∃ s, seq[t - j]? = some s ∧ v s = true := by
    intro j
    induction j with
    | zero =>
      intro _
      obtain ⟨x, u', s, hx, hu', hs⟩ := hfs t ht
      rw [hu, Option.some.injEq] at hu'
      subst hu'
      refine ⟨_, run.step t x u s hx hu hs, ?_⟩
      have := hop ((buildTaylorSmoother (K := K) qr svd rtol ign getDynamics opts).smootherPrepare x u
        (keyAt rng key fs.length (t + 1))) s
      refine this.trans ?_
      obtain ⟨p, hp⟩ := h x
      rw [show v _ = true by
        rw [hv]; simp only [taylor_smoother_prepare_skip qr svd rtol ign getDynamics opts hn x u p hp, Option.isNone_none],
        Bool.true_or]
    | succ j ih =>
      intro hj
      obtain ⟨s, hs, hvs⟩ := ih (by omega)
      obtain ⟨x, u', -, hx, hu', -⟩ := hfs (t - (j + 1)) (by omega)
      rw [show t - j = t - (j + 1) + 1 by omega] at hs
      refine ⟨_, run.step _ x u' s hx hu' hs, ?_⟩
      exact (hop _ s).trans (by rw [hvs, Bool.or_true])
  intro i hi
  obtain ⟨s, hs, hvs'⟩ := main (t - i) (by omega)
  rw [show t - (t - i) = i by omega] at hs
  have h1 := congrArg (fun l => l[i]?) hvs
  simp only [List.getElem?_map, hs, Option.map_some] at h1
  cases hx : states[i]? with
  | none => rw [hx] at h1; cases h1
  | some x =>
    rw [hx, Option.map_some, Option.some.injEq, hvs'] at h1
    rw [hv] at h1
    have : x.elem = none := by
      cases he : x.elem with
      | none => rfl
      | some e => simp [he] at h1
    exact ⟨x, rfl, by simp [SmootherState.mean, this], by simp [SmootherState.cholCov, this]⟩

/-- **C66** (witness). A Gaussian potential and a skipped prediction: the Taylor filter returns finite states, and
the Taylor smoother on those states returns NaN at time 0 in both modes. -/
theorem taylor_filter_finite_smoother_nan (qr : QR) (svd : SVD) (D : Dummies 2) (rng : Prng K)
    (opts : SmootherOpts 2 Unit) (parallel : Bool) (key : Option K) :
    ∃ cb : TCallbacks 2 0 Unit, ∃ fs states,
      (filter rng (buildTaylorFilter qr svd D cb false) [(), ()] false key).result = .ok fs ∧
      (∀ s ∈ fs, s.Finite) ∧
      (smoother rng LState.modelInputs (fun u => .ok (opts.dummy u))
        (buildTaylorSmoother qr svd cb.rtol cb.ignoreNanDims cb.getDynamics opts) fs (some [()]) parallel
          key).result = .ok states ∧
      ∃ s, states[0]? = some s ∧ s.mean = none := by
  obtain ⟨cb, fk, hrt, hrep, -, -, -, hskip⟩ := exists_skip_model 0
  obtain ⟨fs, h1, h2, h3⟩ := taylor_non_associative_exact qr svd D cb (by rw [hrt]; norm_num) rng () [()] key 0 1 fk
    (by rw [Matrix.transpose_one, Matrix.one_mul]; exact hrep)
  obtain ⟨r, hr⟩ : ∃ r, r = (smoother rng LState.modelInputs (fun u => .ok (opts.dummy u))
        (buildTaylorSmoother qr svd cb.rtol cb.ignoreNanDims cb.getDynamics opts) fs (some [()]) parallel
          key).result := ⟨_, rfl⟩
  obtain ⟨states, hst⟩ : ∃ states, r = .ok states := by
    rw [hr, smoother_core_eq _ _ _ _ _ _ (by rw [h2])]
    obtain ⟨xT, hxT⟩ : ∃ x, fs.getLast? = some x :=
      ⟨_, List.getLast?_eq_some_getLast (by intro e; subst e; simp at h2)⟩
    simp only [smootherCore, hxT, List.getElem?_cons_zero]
    exact ⟨_, rfl⟩
  obtain ⟨s, hs, hm, -⟩ := taylor_smoother_skip_nan qr svd rng LState.modelInputs (fun u => .ok (opts.dummy u)) cb.rtol
    cb.ignoreNanDims cb.getDynamics opts (by norm_num) fs [()] (by rw [h2]) parallel key 0 () rfl hskip states
    (by rw [← hst, hr]) 0 le_rfl
  refine ⟨cb, fs, states, h1, fun s hs => ?_, by rw [← hst, hr], s, hs, hm⟩
  obtain ⟨t, ht⟩ := List.mem_iff_getElem?.mp hs
  have htl : t ≤ [()].length := by
    have := (List.getElem?_eq_some_iff.mp ht).1
    omega
  obtain ⟨s', m, L, l, a1, a2, a3, a4, -⟩ := h3 t htl
  rw [ht, Option.some.injEq] at a1
  subst a1
  exact ⟨by rw [a2]; simp, by rw [a3]; simp, by rw [a4]; simp⟩

end

end Linearize
end Cuthbert
