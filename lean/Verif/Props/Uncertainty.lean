import Verif.Lemmas.Uncertainty
import Verif.Props.KalmanSmoother

/-!
# More data or less noise never increases the uncertainty the Kalman filter and smoother report (C79)
-/

namespace Cuthbert.Kalman
open Matrix Cuthbert Cuthbert.Spec

noncomputable section

variable {nx ny : ℕ} {Inp Inp' K K' : Type}

theorem kfAt_gram (cb : Callbacks nx ny Inp) (u₀ : Inp) (us : List Inp) (hR : ∀ u ∈ us, (stepOf cb u).R.det ≠ 0)
    (t : ℕ) : IsGram (kfAt cb u₀ us t).P := by
  have key : ∀ (ss : List (Step nx ny)) (k : KF nx), (∀ s ∈ ss, s.R.det ≠ 0) → IsGram k.P →
      IsGram (ss.foldl kfStep k).P := by
    intro ss
    induction ss with
    | nil => exact fun k _ hk => hk
    | cons s ss ih =>
      exact fun k h hk => ih _ (fun s' hs' => h s' (List.mem_cons_of_mem _ hs'))
        (kfStep_gram k hk s (h s List.mem_cons_self))
  refine key _ _ (fun s hs => ?_) (isGram_of _)
  obtain ⟨u, hu, rfl⟩ := List.mem_map.mp hs
  exact hR u (List.mem_of_mem_take hu)

/-- The factor of a filtering state. -/
theorem filter_cov (qr : QR) (rng : Prng K) (cb : Callbacks nx ny Inp) (u₀ : Inp) (us : List Inp) (parallel : Bool)
    (key : Option K) (hR : ∀ u ∈ us, (stepOf cb u).R.det ≠ 0) {states : List (FilterState nx Inp)}
    (h : (filter rng (buildFilter qr cb) (u₀ :: us) parallel key).result = .ok states) {t : ℕ} {s : FilterState nx Inp}
    (hs : states[t]? = some s) : t ≤ us.length ∧ ∃ L, s.cholCov = some L ∧ L * Lᵀ = (kfAt cb u₀ us t).P := by
  obtain ⟨h1, -, h3⟩ := filter_run_facts qr rng cb u₀ us parallel key (fun u hu => ScanOk.of_R _ (hR u hu)) states h
  have ht : t ≤ us.length := by
    have := (List.getElem?_eq_some_iff.mp hs).1
    omega
  obtain ⟨s', e, h4, h5, h6⟩ := h3 t ht
  rw [hs, Option.some.injEq] at h4
  subst h4
  exact ⟨ht, e.U, by simp [FilterState.cholCov, h5], h6.C⟩

/-- The factor of a smoothing state. -/
theorem smoother_cov (qr : QR) (rng rng' : Prng K) (cb : Callbacks nx ny Inp) (u₀ : Inp) (us : List Inp) (hus : us ≠ [])
    (parallel parallel' : Bool) (key key' : Option K) (opts : SmootherOpts nx Inp)
    (hR : ∀ u ∈ us, (stepOf cb u).R.det ≠ 0) {filterStates : List (FilterState nx Inp)}
    (hf : (filter rng (buildFilter qr cb) (u₀ :: us) parallel key).result = .ok filterStates)
    (hP : ∀ (t : ℕ) s L u, filterStates[t]? = some s → s.cholCov = some L → us[t]? = some u →
      ((stepOf cb u).F * (L * Lᵀ) * ((stepOf cb u).F)ᵀ +
        (stepOf cb u).cholQ * ((stepOf cb u).cholQ)ᵀ).det ≠ 0)
    {states : List (SmootherState nx Inp)}
    (h : (smoother rng' FilterState.modelInputs (fun u => .ok (opts.dummy u))
        (buildSmoother qr cb.getDynamics opts) filterStates none parallel' key').result = .ok states) {t : ℕ}
    {s : SmootherState nx Inp} (hs : states[t]? = some s) :
    t ≤ us.length ∧ ∃ L, s.cholCov = some L ∧
      L * Lᵀ = par (kfAt cb u₀ us t).P (futureInfo ((us.drop t).map (stepOf cb))) := by
  obtain ⟨st, LT, h1, h2, h3, h4⟩ := smoother_run_facts qr rng rng' cb u₀ us hus parallel parallel' key key' opts
    (fun u hu => ScanOk.of_R _ (hR u hu)) filterStates hf hP none (.inl rfl)
  rw [h, Except.ok.injEq] at h1
  subst h1
  have ht : t ≤ us.length := by
    have := (List.getElem?_eq_some_iff.mp hs).1
    omega
  obtain ⟨s', e, bs, h5, h6, h7, h8, -⟩ := h4 t ht
  rw [hs, Option.some.injEq] at h5
  subst h5
  refine ⟨ht, e.D, by simp [SmootherState.cholCov, h6], ?_⟩
  simp only [sForm, SElem.mk.injEq] at h8
  rw [h8.2.2]
  refine backMarg_cov _ _ bs _ LT (kfAt_gram cb u₀ us hR t) (fun s hs => ?_) h7 ?_
  · obtain ⟨u, hu, rfl⟩ := List.mem_map.mp hs
    exact hR u (List.mem_of_mem_drop hu)
  · rw [h3, kfAt, kfAt, ← List.foldl_append, ← List.map_append, List.take_append_drop, List.take_length]

theorem det_of_forall₂ (cb : Callbacks nx ny Inp) (cb' : Callbacks nx ny Inp') {us : List Inp} {us' : List Inp'}
    (hN : List.Forall₂ Noisier (us.map (stepOf cb)) (us'.map (stepOf cb')))
    (hR : ∀ u ∈ us, (stepOf cb u).R.det ≠ 0) : ∀ u ∈ us', (stepOf cb' u).R.det ≠ 0 := by
  induction us generalizing us' with
  | nil =>
    cases us' with
    | nil => exact fun u hu => absurd hu List.not_mem_nil
    | cons u' us' => cases hN
  | cons u us ih =>
    cases us' with
    | nil => cases hN
    | cons u' us' =>
      rw [List.map_cons, List.map_cons, List.forall₂_cons] at hN
      intro v hv
      rcases List.mem_cons.mp hv with rfl | hv
      · exact (hN.1.info (hR u List.mem_cons_self)).1
      · exact ih hN.2 (fun w hw => hR w (List.mem_cons_of_mem _ hw)) v hv

/-- C79, filter. Filter two data sets with two models, the second at least as noisy and with at most as many
components observed at every time. Then every covariance the second filter returns is at least the corresponding one
of the first in the Loewner order, in every combination of modes. -/
theorem filter_covariance_monotone (qr qr' : QR) (rng : Prng K) (rng' : Prng K') (cb : Callbacks nx ny Inp)
    (cb' : Callbacks nx ny Inp') {u₀ : Inp} {us : List Inp} {u₀' : Inp'} {us' : List Inp'}
    (parallel parallel' : Bool) (key : Option K) (key' : Option K')
    (hP0 : Below ((cb.getInit u₀).2 * ((cb.getInit u₀).2)ᵀ) ((cb'.getInit u₀').2 * ((cb'.getInit u₀').2)ᵀ))
    (hN : List.Forall₂ Noisier (us.map (stepOf cb)) (us'.map (stepOf cb')))
    (hR : ∀ u ∈ us, (stepOf cb u).R.det ≠ 0) {states : List (FilterState nx Inp)}
    {states' : List (FilterState nx Inp')}
    (h : (filter rng (buildFilter qr cb) (u₀ :: us) parallel key).result = .ok states)
    (h' : (filter rng' (buildFilter qr' cb') (u₀' :: us') parallel' key').result = .ok states')
    (t : ℕ) (s : FilterState nx Inp) (s' : FilterState nx Inp') (hs : states[t]? = some s) (hs' : states'[t]? = some s') :
    ∃ L L', s.cholCov = some L ∧ s'.cholCov = some L' ∧ Below (L * Lᵀ) (L' * L'ᵀ) := by
  have hR' := det_of_forall₂ cb cb' hN hR
  obtain ⟨-, L, h1, h2⟩ := filter_cov qr rng cb u₀ us parallel key hR h hs
  obtain ⟨-, L', h3, h4⟩ := filter_cov qr' rng' cb' u₀' us' parallel' key' hR' h' hs'
  refine ⟨L, L', h1, h3, ?_⟩
  rw [h2, h4]
  refine kf_mono _ _ _ _ ?_ (fun s hs => ?_) (isGram_of _) (isGram_of _) hP0
  · rw [List.map_take, List.map_take]
    exact List.forall₂_take t hN
  · obtain ⟨u, hu, rfl⟩ := List.mem_map.mp hs
    exact hR u (List.mem_of_mem_take hu)

/-- C79, smoother: the same for the covariances that the smoother returns. The predictive covariances of the first
model must be nonsingular (see C30); those of the second then are. -/
theorem smoother_covariance_monotone (qr qr' : QR) (rng rng₁ : Prng K) (rng' rng₁' : Prng K')
    (cb : Callbacks nx ny Inp) (cb' : Callbacks nx ny Inp') {u₀ : Inp} {us : List Inp} {u₀' : Inp'} {us' : List Inp'}
    (hus : us ≠ []) (parallel parallel₁ parallel' parallel₁' : Bool) (key key₁ : Option K) (key' key₁' : Option K')
    (opts : SmootherOpts nx Inp) (opts' : SmootherOpts nx Inp')
    (hP0 : Below ((cb.getInit u₀).2 * ((cb.getInit u₀).2)ᵀ) ((cb'.getInit u₀').2 * ((cb'.getInit u₀').2)ᵀ))
    (hN : List.Forall₂ Noisier (us.map (stepOf cb)) (us'.map (stepOf cb')))
    (hR : ∀ u ∈ us, (stepOf cb u).R.det ≠ 0) {filterStates : List (FilterState nx Inp)}
    {filterStates' : List (FilterState nx Inp')}
    (hf : (filter rng (buildFilter qr cb) (u₀ :: us) parallel key).result = .ok filterStates)
    (hf' : (filter rng' (buildFilter qr' cb') (u₀' :: us') parallel' key').result = .ok filterStates')
    (hP : ∀ (t : ℕ) s L u, filterStates[t]? = some s → s.cholCov = some L → us[t]? = some u →
      ((stepOf cb u).F * (L * Lᵀ) * ((stepOf cb u).F)ᵀ +
        (stepOf cb u).cholQ * ((stepOf cb u).cholQ)ᵀ).det ≠ 0)
    {states : List (SmootherState nx Inp)} {states' : List (SmootherState nx Inp')}
    (h : (smoother rng₁ FilterState.modelInputs (fun u => .ok (opts.dummy u))
        (buildSmoother qr cb.getDynamics opts) filterStates none parallel₁ key₁).result = .ok states)
    (h' : (smoother rng₁' FilterState.modelInputs (fun u => .ok (opts'.dummy u))
        (buildSmoother qr' cb'.getDynamics opts') filterStates' none parallel₁' key₁').result = .ok states')
    (t : ℕ) (s : SmootherState nx Inp) (s' : SmootherState nx Inp') (hs : states[t]? = some s)
    (hs' : states'[t]? = some s') :
    ∃ L L', s.cholCov = some L ∧ s'.cholCov = some L' ∧ Below (L * Lᵀ) (L' * L'ᵀ) := by
  have hR' := det_of_forall₂ cb cb' hN hR
  have hlen : us.length = us'.length := by simpa using hN.length_eq
  have hus' : us' ≠ [] := fun h0 => hus (List.length_eq_zero_iff.mp (by rw [hlen, h0]; rfl))
  have hP' : ∀ (t : ℕ) s L u, filterStates'[t]? = some s → s.cholCov = some L → us'[t]? = some u →
      ((stepOf cb' u).F * (L * Lᵀ) * ((stepOf cb' u).F)ᵀ +
        (stepOf cb' u).cholQ * ((stepOf cb' u).cholQ)ᵀ).det ≠ 0 := by
    intro t s₁' L₁' u' hs₁' hL' hu'
    have ht' : t < us'.length := (List.getElem?_eq_some_iff.mp hu').1
    have ht : t < us.length := by omega
    obtain ⟨hl, -, hall⟩ := filter_run_facts qr rng cb u₀ us parallel key (fun u hu => ScanOk.of_R _ (hR u hu))
      filterStates hf
    obtain ⟨s₁, -, hs₁, -⟩ := hall t ht.le
    obtain ⟨L, L', h1, h2, h3⟩ := filter_covariance_monotone qr qr' rng rng' cb cb' parallel parallel' key key' hP0 hN hR
      hf hf' t s₁ s₁' hs₁ hs₁'
    rw [hL', Option.some.injEq] at h2
    subst h2
    have h4 := hP t s₁ L us[t] hs₁ h1 (List.getElem?_eq_getElem ht)
    have hn : Noisier (stepOf cb us[t]) (stepOf cb' u') := by
      have := List.Forall₂.get hN (i := t) (by simpa using ht) (by simpa using ht')
      obtain ⟨_, h5⟩ := List.getElem?_eq_some_iff.mp hu'
      rw [← h5]
      simpa using this
    have h5 : Below ((stepOf cb us[t]).F * (L * Lᵀ) * ((stepOf cb us[t]).F)ᵀ +
        (stepOf cb us[t]).cholQ * ((stepOf cb us[t]).cholQ)ᵀ) ((stepOf cb' u').F * (L₁' * L₁'ᵀ) * ((stepOf cb' u').F)ᵀ +
        (stepOf cb' u').cholQ * ((stepOf cb' u').cholQ)ᵀ) := by
      rw [hn.F]
      exact (h3.conj _).add hn.Q
    have h6 := (((isGram_of L).conj (stepOf cb us[t]).F).add (isGram_of (stepOf cb us[t]).cholQ)).det_add_ne_zero h4
      (isGram_iff.mpr h5)
    rwa [add_sub_cancel] at h6
  obtain ⟨-, L, h1, h2⟩ := smoother_cov qr rng rng₁ cb u₀ us hus parallel parallel₁ key key₁ opts hR hf hP h hs
  obtain ⟨-, L', h3, h4⟩ := smoother_cov qr' rng' rng₁' cb' u₀' us' hus' parallel' parallel₁' key' key₁' opts' hR' hf'
    hP' h' hs'
  refine ⟨L, L', h1, h3, ?_⟩
  have hkf : Below (kfAt cb u₀ us t).P (kfAt cb' u₀' us' t).P := by
    refine kf_mono _ _ _ _ ?_ (fun s hs => ?_) (isGram_of _) (isGram_of _) hP0
    · rw [List.map_take, List.map_take]
      exact List.forall₂_take t hN
    · obtain ⟨u, hu, rfl⟩ := List.mem_map.mp hs
      exact hR u (List.mem_of_mem_take hu)
  have hfi : Below (futureInfo ((us'.drop t).map (stepOf cb'))) (futureInfo ((us.drop t).map (stepOf cb))) := by
    refine futureInfo_anti _ _ ?_ fun s hs => ?_
    · rw [List.map_drop, List.map_drop]
      exact List.forall₂_drop t hN
    · obtain ⟨u, hu, rfl⟩ := List.mem_map.mp hs
      exact hR u (List.mem_of_mem_drop hu)
  rw [h2, h4]
  exact (par_anti (kfAt_gram cb u₀ us hR t) (futureInfo_gram _) hfi (futureInfo_gram _)).trans
    (par_mono (kfAt_gram cb u₀ us hR t) (futureInfo_gram _) hkf)

/-- C79: smoothing never increases the covariance, and conditioning on an observation never increases the predicted
covariance `F P Fᵀ + Q`. -/
theorem smoothing_below_filtering (qr : QR) (rng rng₁ : Prng K) (cb : Callbacks nx ny Inp) {u₀ : Inp} {us : List Inp}
    (hus : us ≠ []) (parallel parallel₁ : Bool) (key key₁ : Option K) (opts : SmootherOpts nx Inp)
    (hR : ∀ u ∈ us, (stepOf cb u).R.det ≠ 0) {filterStates : List (FilterState nx Inp)}
    (hf : (filter rng (buildFilter qr cb) (u₀ :: us) parallel key).result = .ok filterStates)
    (hP : ∀ (t : ℕ) s L u, filterStates[t]? = some s → s.cholCov = some L → us[t]? = some u →
      ((stepOf cb u).F * (L * Lᵀ) * ((stepOf cb u).F)ᵀ +
        (stepOf cb u).cholQ * ((stepOf cb u).cholQ)ᵀ).det ≠ 0)
    {states : List (SmootherState nx Inp)}
    (h : (smoother rng₁ FilterState.modelInputs (fun u => .ok (opts.dummy u))
        (buildSmoother qr cb.getDynamics opts) filterStates none parallel₁ key₁).result = .ok states)
    (t : ℕ) (s : FilterState nx Inp) (s' : SmootherState nx Inp) (hs : filterStates[t]? = some s)
    (hs' : states[t]? = some s') :
    ∃ L L', s.cholCov = some L ∧ s'.cholCov = some L' ∧ Below (L' * L'ᵀ) (L * Lᵀ) := by
  obtain ⟨-, L, h1, h2⟩ := filter_cov qr rng cb u₀ us parallel key hR hf hs
  obtain ⟨-, L', h3, h4⟩ := smoother_cov qr rng rng₁ cb u₀ us hus parallel parallel₁ key key₁ opts hR hf hP h hs'
  refine ⟨L, L', h1, h3, ?_⟩
  rw [h2, h4]
  exact par_le (kfAt_gram cb u₀ us hR t) (futureInfo_gram _)

theorem filtering_below_prediction (qr : QR) (rng : Prng K) (cb : Callbacks nx ny Inp) {u₀ : Inp} {us : List Inp}
    (parallel : Bool) (key : Option K) (hR : ∀ u ∈ us, (stepOf cb u).R.det ≠ 0)
    {states : List (FilterState nx Inp)}
    (h : (filter rng (buildFilter qr cb) (u₀ :: us) parallel key).result = .ok states) (t : ℕ) (u : Inp)
    (s s' : FilterState nx Inp) (hu : us[t]? = some u) (hs : states[t]? = some s) (hs' : states[t + 1]? = some s') :
    ∃ L L', s.cholCov = some L ∧ s'.cholCov = some L' ∧
      Below (L' * L'ᵀ) ((stepOf cb u).F * (L * Lᵀ) * ((stepOf cb u).F)ᵀ +
        (stepOf cb u).cholQ * ((stepOf cb u).cholQ)ᵀ) := by
  obtain ⟨-, L, h1, h2⟩ := filter_cov qr rng cb u₀ us parallel key hR h hs
  obtain ⟨-, L', h3, h4⟩ := filter_cov qr rng cb u₀ us parallel key hR h hs'
  refine ⟨L, L', h1, h3, ?_⟩
  have hg := kfAt_gram cb u₀ us hR t
  rw [h2, h4, kfAt_succ cb u₀ us t u hu, kfStep_P _ hg _ (hR u (List.mem_of_getElem? hu))]
  exact par_le (pred_gram hg _) (stepInfo_gram _)

/-- C79: the covariances do not depend on the initial mean, the offsets or the observed values, only on which
components are observed. -/
theorem filter_covariance_data_free (qr qr' : QR) (rng : Prng K) (rng' : Prng K') (cb : Callbacks nx ny Inp)
    (cb' : Callbacks nx ny Inp') {u₀ : Inp} {us : List Inp} {u₀' : Inp'} {us' : List Inp'}
    (parallel parallel' : Bool) (key : Option K) (key' : Option K')
    (hP0 : (cb.getInit u₀).2 = (cb'.getInit u₀').2)
    (hN : List.Forall₂ (fun s s' : Step nx ny => s.F = s'.F ∧ s.cholQ = s'.cholQ ∧ s.H = s'.H ∧ s.cholR = s'.cholR ∧
      ∀ i, (s.y i).isSome = (s'.y i).isSome) (us.map (stepOf cb)) (us'.map (stepOf cb')))
    (hR : ∀ u ∈ us, (stepOf cb u).R.det ≠ 0) {states : List (FilterState nx Inp)}
    {states' : List (FilterState nx Inp')}
    (h : (filter rng (buildFilter qr cb) (u₀ :: us) parallel key).result = .ok states)
    (h' : (filter rng' (buildFilter qr' cb') (u₀' :: us') parallel' key').result = .ok states')
    (t : ℕ) (s : FilterState nx Inp) (s' : FilterState nx Inp') (hs : states[t]? = some s) (hs' : states'[t]? = some s') :
    ∃ L L', s.cholCov = some L ∧ s'.cholCov = some L' ∧ L * Lᵀ = L' * L'ᵀ := by
  have h1 : List.Forall₂ Noisier (us.map (stepOf cb)) (us'.map (stepOf cb')) :=
    hN.imp fun s s' ⟨e1, e2, e3, e4, e5⟩ => ⟨e1.symm, e3.symm, by rw [e2]; exact Below.refl _,
      by rw [e4]; exact Below.refl _, fun i hi => by rw [e5]; exact hi⟩
  have h2 : List.Forall₂ Noisier (us'.map (stepOf cb')) (us.map (stepOf cb)) :=
    hN.flip.imp fun s s' ⟨e1, e2, e3, e4, e5⟩ => ⟨e1, e3, by rw [e2]; exact Below.refl _,
      by rw [e4]; exact Below.refl _, fun i hi => by rw [← e5]; exact hi⟩
  obtain ⟨L, L', h3, h4, h5⟩ := filter_covariance_monotone qr qr' rng rng' cb cb' parallel parallel' key key'
    (by rw [hP0]; exact Below.refl _) h1 hR h h' t s s' hs hs'
  obtain ⟨M', M, h6, h7, h8⟩ := filter_covariance_monotone qr' qr rng' rng cb' cb parallel' parallel key' key
    (by rw [hP0]; exact Below.refl _) h2 (det_of_forall₂ cb cb' h1 hR) h' h t s' s hs' hs
  rw [h4, Option.some.injEq] at h6
  rw [h3, Option.some.injEq] at h7
  subst h6 h7
  exact ⟨L, L', h3, h4, h5.antisymm h8⟩

theorem smoother_covariance_data_free (qr qr' : QR) (rng rng₁ : Prng K) (rng' rng₁' : Prng K')
    (cb : Callbacks nx ny Inp) (cb' : Callbacks nx ny Inp') {u₀ : Inp} {us : List Inp} {u₀' : Inp'} {us' : List Inp'}
    (hus : us ≠ []) (parallel parallel₁ parallel' parallel₁' : Bool) (key key₁ : Option K) (key' key₁' : Option K')
    (opts : SmootherOpts nx Inp) (opts' : SmootherOpts nx Inp')
    (hP0 : (cb.getInit u₀).2 = (cb'.getInit u₀').2)
    (hN : List.Forall₂ (fun s s' : Step nx ny => s.F = s'.F ∧ s.cholQ = s'.cholQ ∧ s.H = s'.H ∧ s.cholR = s'.cholR ∧
      ∀ i, (s.y i).isSome = (s'.y i).isSome) (us.map (stepOf cb)) (us'.map (stepOf cb')))
    (hR : ∀ u ∈ us, (stepOf cb u).R.det ≠ 0) {filterStates : List (FilterState nx Inp)}
    {filterStates' : List (FilterState nx Inp')}
    (hf : (filter rng (buildFilter qr cb) (u₀ :: us) parallel key).result = .ok filterStates)
    (hf' : (filter rng' (buildFilter qr' cb') (u₀' :: us') parallel' key').result = .ok filterStates')
    (hP : ∀ (t : ℕ) s L u, filterStates[t]? = some s → s.cholCov = some L → us[t]? = some u →
      ((stepOf cb u).F * (L * Lᵀ) * ((stepOf cb u).F)ᵀ +
        (stepOf cb u).cholQ * ((stepOf cb u).cholQ)ᵀ).det ≠ 0)
    {states : List (SmootherState nx Inp)} {states' : List (SmootherState nx Inp')}
    (h : (smoother rng₁ FilterState.modelInputs (fun u => .ok (opts.dummy u))
        (buildSmoother qr cb.getDynamics opts) filterStates none parallel₁ key₁).result = .ok states)
    (h' : (smoother rng₁' FilterState.modelInputs (fun u => .ok (opts'.dummy u))
        (buildSmoother qr' cb'.getDynamics opts') filterStates' none parallel₁' key₁').result = .ok states')
    (t : ℕ) (s : SmootherState nx Inp) (s' : SmootherState nx Inp') (hs : states[t]? = some s)
    (hs' : states'[t]? = some s') :
    ∃ L L', s.cholCov = some L ∧ s'.cholCov = some L' ∧ L * Lᵀ = L' * L'ᵀ := by
  have h1 : List.Forall₂ Noisier (us.map (stepOf cb)) (us'.map (stepOf cb')) :=
    hN.imp fun s s' ⟨e1, e2, e3, e4, e5⟩ => ⟨e1.symm, e3.symm, by rw [e2]; exact Below.refl _,
      by rw [e4]; exact Below.refl _, fun i hi => by rw [e5]; exact hi⟩
  have h2 : List.Forall₂ Noisier (us'.map (stepOf cb')) (us.map (stepOf cb)) :=
    hN.flip.imp fun s s' ⟨e1, e2, e3, e4, e5⟩ => ⟨e1, e3, by rw [e2]; exact Below.refl _,
      by rw [e4]; exact Below.refl _, fun i hi => by rw [← e5]; exact hi⟩
  have hR' := det_of_forall₂ cb cb' h1 hR
  have hlen : us.length = us'.length := by simpa using hN.length_eq
  have hus' : us' ≠ [] := fun h0 => hus (List.length_eq_zero_iff.mp (by rw [hlen, h0]; rfl))
  have hP' : ∀ (t : ℕ) s L u, filterStates'[t]? = some s → s.cholCov = some L → us'[t]? = some u →
      ((stepOf cb' u).F * (L * Lᵀ) * ((stepOf cb' u).F)ᵀ +
        (stepOf cb' u).cholQ * ((stepOf cb' u).cholQ)ᵀ).det ≠ 0 := by
    intro t s₁' L₁' u' hs₁' hL' hu'
    have ht' : t < us'.length := (List.getElem?_eq_some_iff.mp hu').1
    have ht : t < us.length := by omega
    obtain ⟨hl, -, hall⟩ := filter_run_facts qr rng cb u₀ us parallel key (fun u hu => ScanOk.of_R _ (hR u hu))
      filterStates hf
    obtain ⟨s₁, -, hs₁, -⟩ := hall t ht.le
    obtain ⟨L, L', h1, h2, h3⟩ := filter_covariance_data_free qr qr' rng rng' cb cb' parallel parallel' key key' hP0 hN hR
      hf hf' t s₁ s₁' hs₁ hs₁'
    rw [hL', Option.some.injEq] at h2
    subst h2
    have h4 := hP t s₁ L us[t] hs₁ h1 (List.getElem?_eq_getElem ht)
    obtain ⟨_, h5⟩ := List.getElem?_eq_some_iff.mp hu'
    have hn := List.Forall₂.get hN (i := t) (by simpa using ht) (by simpa using ht')
    simp only [List.get_eq_getElem, List.getElem_map, h5] at hn
    rwa [hn.1, hn.2.1, h3] at h4
  obtain ⟨L, L', h3, h4, h5⟩ := smoother_covariance_monotone qr qr' rng rng₁ rng' rng₁' cb cb' hus parallel parallel₁
    parallel' parallel₁' key key₁ key' key₁' opts opts' (by rw [hP0]; exact Below.refl _) h1 hR hf hf' hP h h' t s s'
    hs hs'
  obtain ⟨M', M, h6, h7, h8⟩ := smoother_covariance_monotone qr' qr rng' rng₁' rng rng₁ cb' cb hus' parallel' parallel₁'
    parallel parallel₁ key' key₁' key key₁ opts' opts (by rw [hP0]; exact Below.refl _) h2 hR' hf' hf hP' h' h t s' s
    hs' hs
  rw [h4, Option.some.injEq] at h6
  rw [h3, Option.some.injEq] at h7
  subst h6 h7
  exact ⟨L, L', h3, h4, h5.antisymm h8⟩

/-- Non-vacuity: declaring a component missing and doubling the standard deviations. -/
example (y : Fin 2 → ℝ) :
    let s : Step 2 2 := ⟨1, 0, 1, 1, 0, 1, fun i => some (y i)⟩
    let s' : Step 2 2 := ⟨1, 5, (2 : ℝ) • 1, 1, 0, (2 : ℝ) • 1, ![none, some 7]⟩
    Noisier s s' ∧ s.R.det ≠ 0 := by
  have h : ((2 : ℝ) • (1 : Matrix (Fin 2) (Fin 2) ℝ) * ((2 : ℝ) • 1)ᵀ - 1 * 1ᵀ).PosSemidef := by
    have : (2 : ℝ) • (1 : Matrix (Fin 2) (Fin 2) ℝ) * ((2 : ℝ) • 1)ᵀ - 1 * 1ᵀ = (3 : ℝ) • 1 := by
      rw [Matrix.transpose_smul, Matrix.transpose_one, Matrix.smul_mul, Matrix.mul_smul, Matrix.one_mul, smul_smul,
        ← sub_eq_zero]
      module
    rw [this]
    exact Matrix.PosSemidef.one.smul (by norm_num)
  refine ⟨⟨rfl, rfl, h, h, fun i _ => rfl⟩, obsR_det _ _ (by simp)⟩

end

end Cuthbert.Kalman
