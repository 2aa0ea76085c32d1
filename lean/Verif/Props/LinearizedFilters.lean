import Verif.Lemmas.LinearizedRun

/-!
# Theorems about the moments filter (C37, C39)
-/

namespace Cuthbert.Linearize
open MeasureTheory Matrix Cuthbert Cuthbert.Spec Kalman
open scoped ENNReal

noncomputable section

set_option linter.unusedSectionVars false

variable {nx ny : ℕ} {Inp K : Type*}

/-! ## Specification -/

/-- The conditional moments are those of the linear-Gaussian model `lg`, whatever linearisation points the
callbacks choose and whatever state they are given. -/
structure AffineMoments (cb : MCallbacks nx ny Inp) (lg : Callbacks nx ny Inp) : Prop where
  init : ∀ u, cb.getInit u = lg.getInit u
  dynamics : ∀ s u x, (cb.getDynamics s u).1 x =
    ((lg.getDynamics u).1 *ᵥ x + (lg.getDynamics u).2.1, (lg.getDynamics u).2.2)
  observation : ∀ s u x, (cb.getObservation s u).1 x =
    ((lg.getObservation u).1 *ᵥ x + (lg.getObservation u).2.1, (lg.getObservation u).2.2.1)
  y : ∀ s u, (cb.getObservation s u).2.2 = (lg.getObservation u).2.2.2

/-- The linear-Gaussian model obtained by linearising at the points chosen for the state `s u`. -/
def linearisedAt (cb : MCallbacks nx ny Inp) (s : Inp → LState nx Inp) : Callbacks nx ny Inp where
  getInit := cb.getInit
  getDynamics u := linearizeMoments (cb.getDynamics (s u) u).1 (cb.getDynamics (s u) u).2
  getObservation u :=
    let o := cb.getObservation (s u) u
    let l := linearizeMoments o.1 o.2.1
    (l.1, l.2.1, l.2.2, o.2.2)

/-- The callbacks do not look at the state. -/
def StateFree (cb : MCallbacks nx ny Inp) : Prop :=
  ∀ s s' u, cb.getDynamics s u = cb.getDynamics s' u ∧ cb.getObservation s u = cb.getObservation s' u

theorem AffineMoments.linearised {cb : MCallbacks nx ny Inp} {lg : Callbacks nx ny Inp}
    (h : AffineMoments cb lg) (s : Inp → LState nx Inp) : linearisedAt cb s = lg := by
  have h1 : cb.getInit = lg.getInit := funext h.init
  have h2 : ∀ u, linearizeMoments (cb.getDynamics (s u) u).1 (cb.getDynamics (s u) u).2 =
      lg.getDynamics u := fun u => by
    rw [linearize_moments_affine _ (lg.getDynamics u).1 (lg.getDynamics u).2.1
      (fun x => by rw [h.dynamics]), h.dynamics]
  have h3 : ∀ u, linearizeMoments (cb.getObservation (s u) u).1 (cb.getObservation (s u) u).2.1 =
      ((lg.getObservation u).1, (lg.getObservation u).2.1, (lg.getObservation u).2.2.1) := fun u => by
    rw [linearize_moments_affine _ (lg.getObservation u).1 (lg.getObservation u).2.1
      (fun x => by rw [h.observation]), h.observation]
  cases lg
  simp only [linearisedAt, Callbacks.mk.injEq]
  refine ⟨h1, funext h2, funext fun u => ?_⟩
  rw [h3, h.y]

/-! ## The associative filter -/

/-- **C37, C39** (associative filter, any model). What the associative moments filter returns, in both modes,
is exactly what the Kalman filter returns for the model linearised at the points the callbacks choose for
the dummy state. -/
theorem moments_associative_is_linearised_kalman (qr : QR) (D : Dummies nx) (cb : MCallbacks nx ny Inp)
    (rng : Prng K) (inputs : List Inp) (parallel : Bool) (key : Option K) :
    (filter rng (buildMomentsFilter qr D cb true) inputs parallel key).result.map
        (List.map LState.toFilter) =
      (filter rng (buildFilter qr (linearisedAt cb (dummyState D))) inputs parallel key).result :=
  filter_map rng LState.toFilter _ _ (fun _ _ => rfl) (fun _ _ => rfl) (fun _ _ => rfl) inputs parallel key

/-- **C37** (associative filter). For a linear-Gaussian model the associative moments filter returns, in both
modes, exactly the states of the Kalman filter. -/
theorem moments_associative_is_kalman (qr : QR) (D : Dummies nx) (cb : MCallbacks nx ny Inp)
    (lg : Callbacks nx ny Inp) (h : AffineMoments cb lg) (rng : Prng K) (inputs : List Inp) (parallel : Bool)
    (key : Option K) :
    (filter rng (buildMomentsFilter qr D cb true) inputs parallel key).result.map
        (List.map LState.toFilter) =
      (filter rng (buildFilter qr lg) inputs parallel key).result := by
  rw [moments_associative_is_linearised_kalman, h.linearised]

/-! ## The non-associative filter -/

/-- The states of a non-associative run when linearisation always gives the model `lg`. -/
theorem moments_run (qr : QR) (D : Dummies nx) (cb : MCallbacks nx ny Inp) (lg : Callbacks nx ny Inp)
    (hi : ∀ u, cb.getInit u = lg.getInit u) (hlin : ∀ s : Inp → LState nx Inp, linearisedAt cb s = lg)
    (u₀ : Inp) (us : List Inp) (keys : ℕ → Option K) (states : List (LState nx Inp))
    (hrun : IsOnlineFilterRun (buildMomentsFilter (K := K) qr D cb false).initPrepare
      (buildMomentsFilter (K := K) qr D cb false).filterPrepare
      (buildMomentsFilter (K := K) qr D cb false).filterCombine (u₀ :: us) keys states)
    (hR : ∀ u ∈ us, (stepOf lg u).R.det ≠ 0) :
    ∀ t ≤ us.length, ∃ s, states[t]? = some s ∧ Holds s (kfAt lg u₀ us t) := by
  intro t
  induction t with
  | zero =>
    intro _
    refine ⟨_, hrun.first u₀ rfl, ?_, ⟨(lg.getInit u₀).2, ?_, rfl⟩, rfl⟩
    · change some (cb.getInit u₀).1 = some (lg.getInit u₀).1
      rw [hi]
    · change some (cb.getInit u₀).2 = some (lg.getInit u₀).2
      rw [hi]
  | succ t ih =>
    intro ht
    have htl : t < us.length := ht
    have hut : us[t]? = some us[t] := List.getElem?_eq_getElem htl
    have hmem : us[t] ∈ us := List.getElem_mem htl
    obtain ⟨s, hs, hh⟩ := ih htl.le
    have hg : IsGram (kfAt lg u₀ us t).P := by
      obtain ⟨L, -, hL⟩ := hh.cov
      rw [← hL]; exact isGram_of _
    have hst := hrun.step t us[t] s (by simp) hs
    refine ⟨_, hst, ?_⟩
    rw [kfAt_succ lg u₀ us t _ hut]
    have hdyn : ∀ s', mDynamics cb s' us[t] = ((stepOf lg us[t]).F, (stepOf lg us[t]).c,
        (stepOf lg us[t]).cholQ) := fun s' => by
      have := hlin fun _ => s'
      rw [← this]; rfl
    have hobs : ∀ s', mObservation cb s' us[t] = ⟨(stepOf lg us[t]).H, (stepOf lg us[t]).d,
        (stepOf lg us[t]).cholR, (stepOf lg us[t]).y⟩ := fun s' => by
      have := hlin fun _ => s'
      rw [← this]; rfl
    have hmi : ((buildMomentsFilter (K := K) qr D cb false).filterPrepare us[t] (keys (t + 1))).modelInputs =
        us[t] := rfl
    change Holds (mCombineNonAssoc qr D cb s _) _
    simp only [mCombineNonAssoc, hmi]
    rw [hdyn, hobs]
    exact (step_holds qr D s us[t] _ hh (stepOf lg us[t])
      (innov_det_of_R _ (hR _ hmem) (pred_gram hg _))).1

/-- The Kalman filter's states, in either mode. -/
theorem kalman_run (qr : QR) (rng : Prng K) (lg : Callbacks nx ny Inp) (u₀ : Inp) (us : List Inp)
    (parallel : Bool) (key : Option K) (hR : ∀ u ∈ us, (stepOf lg u).R.det ≠ 0) :
    ∃ states, (filter rng (buildFilter qr lg) (u₀ :: us) parallel key).result = .ok states ∧
      states.length = us.length + 1 ∧ ∀ t ≤ us.length, ∃ s, states[t]? = some s ∧
        s.mean = some (kfAt lg u₀ us t).m ∧
        (∃ L, s.cholCov = some L ∧ L * Lᵀ = (kfAt lg u₀ us t).P) ∧
        (IsLower (lg.getInit u₀).2 → ∀ l, s.logNormalizingConstant = some l → l = (kfAt lg u₀ us t).l) := by
  have hok : ∀ u ∈ us, ScanOk (stepOf lg u) := fun u hu => ScanOk.of_R _ (hR u hu)
  cases parallel with
  | false =>
    obtain ⟨states, hst, hrun⟩ := filter_sequential_is_online_run rng (buildFilter (K := K) qr lg)
      (u₀ :: us) key (by simp)
    refine ⟨states, hst, by simpa using hrun.length_eq, fun t ht => ?_⟩
    obtain ⟨s, e, hs, he, hr, -, hell, -⟩ := run_invariant qr lg u₀ us _ states hrun t ht
      fun u hu => hok u (List.mem_of_mem_take hu)
    refine ⟨s, hs, by simp only [FilterState.mean, he, Option.map_some]; rw [hr.b]; rfl,
      ⟨e.U, by simp [FilterState.cholCov, he], hr.C⟩, fun hl l h => (hell hl).2 l ?_⟩
    simpa [FilterState.logNormalizingConstant, he] using h
  | true =>
    obtain ⟨states, hst, hlen, hinv⟩ := parallel_invariant qr rng lg u₀ us key hok False (fun h => h.elim)
    refine ⟨states, hst, hlen, fun t ht => ?_⟩
    obtain ⟨s, hs, e, he, hr, hell, -⟩ := hinv t ht
    have he' : s.elem = some e := he
    refine ⟨s, hs, by simp only [FilterState.mean, he', Option.map_some]; rw [hr.b]; rfl,
      ⟨e.U, by simp [FilterState.cholCov, he'], hr.C⟩, fun hl l h => (hell hl).2 l ?_⟩
    simpa [FilterState.logNormalizingConstant, he'] using h

/-- **C37** (exactness). For a linear-Gaussian model with nonsingular noise on the observed components, the
non-associative moments filter is exact, and unlike that of the Kalman filter its log normalising constant is
never NaN: singular `P0`, `Q` and `F` and non-triangular factors included. -/
theorem moments_non_associative_exact (qr : QR) (D : Dummies nx) (cb : MCallbacks nx ny Inp)
    (lg : Callbacks nx ny Inp) (h : AffineMoments cb lg) (rng : Prng K) (u₀ : Inp) (us : List Inp)
    (key : Option K) (hR : ∀ u ∈ us, (stepOf lg u).R.det ≠ 0) :
    ∃ states, (filter rng (buildMomentsFilter qr D cb false) (u₀ :: us) false key).result = .ok states ∧
      states.length = us.length + 1 ∧
      ∀ t ≤ us.length, ∃ s m L l, states[t]? = some s ∧ s.mean = some m ∧ s.cholCov = some L ∧
        s.logNormalizingConstant = some l ∧
        ∀ φ : (Fin nx → ℝ) → ℝ≥0∞, Measurable φ →
          jointExp (lg.getInit u₀).1 (lg.getInit u₀).2 ((us.take t).map (stepOf lg)) (fun p => φ (p t)) =
            ENNReal.ofReal (Real.exp l) * ∫⁻ x, φ x ∂gauss m L := by
  obtain ⟨states, hst, hrun⟩ := filter_sequential_is_online_run rng (buildMomentsFilter (K := K) qr D cb false)
    (u₀ :: us) key (by simp)
  refine ⟨states, hst, by simpa using hrun.length_eq, fun t ht => ?_⟩
  obtain ⟨s, hs, hm, ⟨L, hL, hLP⟩, hl⟩ := moments_run qr D cb lg h.init h.linearised u₀ us _ states hrun hR t ht
  exact ⟨s, _, L, _, hs, hm, hL, hl, fun φ hφ => kfAt_exact lg u₀ us hR t ht L hLP hφ⟩

/-- What it means for two lists of states to give the same filtering laws, and the same log-likelihood
whenever the second is not NaN. -/
def SameLaws (states : List (LState nx Inp)) (states' : List (FilterState nx Inp)) : Prop :=
  states.length = states'.length ∧ ∀ (t : ℕ) s s', states[t]? = some s → states'[t]? = some s' →
    ∃ m L L' l, s.mean = some m ∧ s'.mean = some m ∧ s.cholCov = some L ∧ s'.cholCov = some L' ∧
      L * Lᵀ = L' * L'ᵀ ∧ s.logNormalizingConstant = some l ∧
      ∀ l', s'.logNormalizingConstant = some l' → l' = l

theorem sameLaws_of (qr : QR) (D : Dummies nx) (cb : MCallbacks nx ny Inp) (lg : Callbacks nx ny Inp)
    (hi : ∀ u, cb.getInit u = lg.getInit u) (hlin : ∀ s : Inp → LState nx Inp, linearisedAt cb s = lg)
    (rng : Prng K) (u₀ : Inp) (us : List Inp) (parallel : Bool) (key key' : Option K)
    (hR : ∀ u ∈ us, (stepOf lg u).R.det ≠ 0) (hlow : IsLower (lg.getInit u₀).2) :
    ∃ states states',
      (filter rng (buildMomentsFilter qr D cb false) (u₀ :: us) false key).result = .ok states ∧
      (filter rng (buildFilter qr lg) (u₀ :: us) parallel key').result = .ok states' ∧
      SameLaws states states' := by
  obtain ⟨states, hst, hrun⟩ := filter_sequential_is_online_run rng (buildMomentsFilter (K := K) qr D cb false)
    (u₀ :: us) key (by simp)
  obtain ⟨states', hst', hlen, hk⟩ := kalman_run qr rng lg u₀ us parallel key' hR
  have hl : states.length = us.length + 1 := by simpa using hrun.length_eq
  refine ⟨states, states', hst, hst', by rw [hl, hlen], fun t s s' hs hs' => ?_⟩
  have ht : t ≤ us.length := by
    have := (List.getElem?_eq_some_iff.mp hs).1
    omega
  obtain ⟨s₁, h1, hm, ⟨L, hL, hLP⟩, hell⟩ := moments_run qr D cb lg hi hlin u₀ us _ states hrun hR t ht
  obtain ⟨s₂, h2, hm', ⟨L', hL', hLP'⟩, hell'⟩ := hk t ht
  rw [hs, Option.some.injEq] at h1
  rw [hs', Option.some.injEq] at h2
  subst h1 h2
  exact ⟨_, L, L', _, hm, hm', hL, hL', by rw [hLP, hLP'], hell, hell' hlow⟩

/-- **C37** (non-associative filter). For a linear-Gaussian model with nonsingular noise on the observed
components and a lower triangular initial factor the sequential non-associative moments filter returns the
means and covariances of the Kalman filter in either mode, and its log-likelihoods where these are not NaN. -/
theorem moments_non_associative_is_kalman (qr : QR) (D : Dummies nx) (cb : MCallbacks nx ny Inp)
    (lg : Callbacks nx ny Inp) (h : AffineMoments cb lg) (rng : Prng K) (u₀ : Inp) (us : List Inp)
    (parallel : Bool) (key key' : Option K) (hR : ∀ u ∈ us, (stepOf lg u).R.det ≠ 0)
    (hlow : IsLower (lg.getInit u₀).2) :
    ∃ states states',
      (filter rng (buildMomentsFilter qr D cb false) (u₀ :: us) false key).result = .ok states ∧
      (filter rng (buildFilter qr lg) (u₀ :: us) parallel key').result = .ok states' ∧
      SameLaws states states' :=
  sameLaws_of qr D cb lg h.init h.linearised rng u₀ us parallel key key' hR hlow

/-! ## C39 -/

/-- **C39.** If the callbacks ignore the state, then the sequential non-associative filter and the
associative filter in either mode give the same means and covariances, and the same log-likelihoods where those
of the associative filter are not NaN. The conditional moments may be any functions. -/
theorem moments_variants_agree (qr : QR) (D : Dummies nx) (cb : MCallbacks nx ny Inp) (hsf : StateFree cb)
    (rng : Prng K) (u₀ : Inp) (us : List Inp) (parallel : Bool) (key key' : Option K)
    (hR : ∀ u ∈ us, (stepOf (linearisedAt cb (dummyState D)) u).R.det ≠ 0) (hlow : IsLower (cb.getInit u₀).2) :
    ∃ states states',
      (filter rng (buildMomentsFilter qr D cb false) (u₀ :: us) false key).result = .ok states ∧
      (filter rng (buildMomentsFilter qr D cb true) (u₀ :: us) parallel key').result = .ok states' ∧
      SameLaws states (states'.map LState.toFilter) := by
  have hlin : ∀ s, linearisedAt cb s = linearisedAt cb (dummyState D) := by
    intro s
    simp only [linearisedAt, Callbacks.mk.injEq]
    refine ⟨trivial, funext fun u => ?_, funext fun u => ?_⟩
    · rw [(hsf (s u) (dummyState D u) u).1]
    · rw [(hsf (s u) (dummyState D u) u).2]
  obtain ⟨states, states', h1, h2, h3⟩ := sameLaws_of qr D cb (linearisedAt cb (dummyState D)) (fun _ => rfl)
    hlin rng u₀ us parallel key key' hR hlow
  rw [← moments_associative_is_linearised_kalman] at h2
  cases hr : (filter rng (buildMomentsFilter qr D cb true) (u₀ :: us) parallel key').result with
  | error e => rw [hr] at h2; cases h2
  | ok st =>
    rw [hr] at h2
    simp only [Except.map, Except.ok.injEq] at h2
    exact ⟨states, st, h1, rfl, h2 ▸ h3⟩

/-- **C37, C39** (the log-likelihoods are not NaN). With nonsingular `P0`, `Q` and observed noise and a lower
triangular initial factor the associative filter returns no NaN, so then the agreement is complete. -/
theorem moments_associative_finite (qr : QR) (D : Dummies nx) (cb : MCallbacks nx ny Inp) (rng : Prng K)
    (u₀ : Inp) (us : List Inp) (parallel : Bool) (key : Option K)
    (hR : ∀ u ∈ us, (stepOf (linearisedAt cb (dummyState D)) u).R.det ≠ 0) (hlow : IsLower (cb.getInit u₀).2)
    (hP0 : ∀ i, (cb.getInit u₀).2 i i ≠ 0)
    (hQ : ∀ u ∈ us, ((stepOf (linearisedAt cb (dummyState D)) u).cholQ *
      ((stepOf (linearisedAt cb (dummyState D)) u).cholQ)ᵀ).det ≠ 0) :
    ∃ states, (filter rng (buildMomentsFilter qr D cb true) (u₀ :: us) parallel key).result = .ok states ∧
      ∀ s ∈ states, s.logNormalizingConstant ≠ none := by
  obtain ⟨states', h2, hlen, hk⟩ := kalman_filter_exact qr rng (linearisedAt cb (dummyState D)) u₀ us parallel
    key hR
  rw [← moments_associative_is_linearised_kalman] at h2
  cases hr : (filter rng (buildMomentsFilter qr D cb true) (u₀ :: us) parallel key).result with
  | error e => rw [hr] at h2; cases h2
  | ok st =>
    rw [hr] at h2
    simp only [Except.map, Except.ok.injEq] at h2
    refine ⟨st, rfl, fun s hs => ?_⟩
    obtain ⟨t, ht⟩ := List.mem_iff_getElem?.mp hs
    have hst' : states'[t]? = some s.toFilter := by rw [← h2, List.getElem?_map, ht]; rfl
    have htl : t ≤ us.length := by
      have := (List.getElem?_eq_some_iff.mp hst').1
      omega
    obtain ⟨s', m, L, l, hs', -, -, -, hf⟩ := hk t htl
    rw [hst', Option.some.injEq] at hs'
    change s.toFilter.logNormalizingConstant ≠ none
    rw [hs', (hf hlow).2 hP0 fun u hu => Or.inr (hQ u hu)]
    simp

/-- Non-vacuity: a model with correlated noise, a missing component and a linearisation point that depends on
the state is `AffineMoments`; its observed noise is nonsingular. -/
example : ∃ (cb : MCallbacks 2 2 Unit) (lg : Callbacks 2 2 Unit), AffineMoments cb lg ∧
    (stepOf lg ()).y = ![some 1, none] ∧ (stepOf lg ()).R.det ≠ 0 ∧ IsLower (lg.getInit ()).2 ∧
    ∃ s s', (cb.getDynamics s ()).2 ≠ (cb.getDynamics s' ()).2 := by
  refine ⟨{ getInit := fun _ => (0, 1)
            getDynamics := fun s _ => (fun x => (!![1, 2; 0, 1] *ᵥ x + 1, !![1, 0; 1, 1]), s.mean.getD 0)
            getObservation := fun s _ => (fun x => (!![1, 2; 3, 4] *ᵥ x + 1, !![1, 0; 1, 1]), s.mean.getD 0,
              ![some 1, none]) },
          { getInit := fun _ => (0, 1)
            getDynamics := fun _ => (!![1, 2; 0, 1], 1, !![1, 0; 1, 1])
            getObservation := fun _ => (!![1, 2; 3, 4], 1, !![1, 0; 1, 1], ![some 1, none]) },
          ⟨fun _ => rfl, fun _ _ _ => rfl, fun _ _ _ => rfl, fun _ _ => rfl⟩, rfl, obsR_det _ _ ?_, ?_,
          ⟨some ⟨0, 0, 0, 0, 0, none⟩, (), none⟩, ⟨some ⟨0, 1, 0, 0, 0, none⟩, (), none⟩, ?_⟩
  · change (!![1, 0; 1, 1] * (!![1, 0; 1, 1])ᵀ : Matrix (Fin 2) (Fin 2) ℝ).det ≠ 0
    rw [Matrix.det_mul, Matrix.det_transpose]
    simp [Matrix.det_fin_two]
  · intro i j hij
    exact Matrix.one_apply_ne hij.ne
  · intro h
    have := congrFun h 0
    simp [LState.mean, LState.toFilter, FilterState.mean] at this

end

end Cuthbert.Linearize
