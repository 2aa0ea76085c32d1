import Verif.Spec.NoiseFree
import Verif.Props.Smoothness
import Verif.Props.LogLik

/-!
# Observations without noise (C141)
-/

namespace Cuthbert.Kalman
open MeasureTheory Matrix Cuthbert.Spec Filter Topology

noncomputable section

variable {nx ny : ℕ} {Inp K : Type}

/-! ## One step -/

theorem vecMul_condCov {ι ο : Type*} [Fintype ι] [DecidableEq ι] [Fintype ο] [DecidableEq ο] {P : Matrix ι ι ℝ} {H : Matrix ο ι ℝ}
    {R : Matrix ο ο ℝ} (hS : (innovCov P H R).det ≠ 0) {v : ο → ℝ} (hv : v ᵥ* R = 0) :
    (v ᵥ* H) ᵥ* P ᵥ* Hᵀ ᵥ* (innovCov P H R)⁻¹ = v ∧ (v ᵥ* H) ᵥ* condCov P H R = 0 := by
  have h0 : (v ᵥ* H) ᵥ* P ᵥ* Hᵀ = v ᵥ* innovCov P H R := by
    rw [innovCov, vecMul_add, hv, add_zero]
    simp only [vecMul_vecMul, Matrix.mul_assoc]
  have h1 : (v ᵥ* H) ᵥ* P ᵥ* Hᵀ ᵥ* (innovCov P H R)⁻¹ = v := by
    rw [h0, vecMul_vecMul, Matrix.mul_nonsing_inv _ (isUnit_iff_ne_zero.mpr hS), vecMul_one]
  refine ⟨h1, ?_⟩
  rw [condCov, vecMul_sub, ← vecMul_vecMul, ← vecMul_vecMul, ← vecMul_vecMul, ← vecMul_vecMul, h1, sub_self]

theorem dot_condMean {ι ο : Type*} [Fintype ι] [DecidableEq ι] [Fintype ο] [DecidableEq ο] {P : Matrix ι ι ℝ} {H : Matrix ο ι ℝ}
    {R : Matrix ο ο ℝ} (hS : (innovCov P H R).det ≠ 0) {v : ο → ℝ} (hv : v ᵥ* R = 0) (m : ι → ℝ) (d y : ο → ℝ) :
    v ⬝ᵥ (H *ᵥ condMean m P H d R y + d) = v ⬝ᵥ y := by
  obtain ⟨h1, -⟩ := vecMul_condCov hS hv
  have h2 : v ⬝ᵥ (H *ᵥ (P *ᵥ (Hᵀ *ᵥ ((innovCov P H R)⁻¹ *ᵥ (y - (H *ᵥ m + d)))))) = v ⬝ᵥ (y - (H *ᵥ m + d)) := by
    rw [dotProduct_mulVec, dotProduct_mulVec, dotProduct_mulVec, dotProduct_mulVec, h1]
  rw [condMean, mulVec_add, add_right_comm, dotProduct_add, h2, ← dotProduct_add, add_sub_cancel]

theorem sum_obs {y : Fin ny → Option ℝ} {w : Fin ny → ℝ} (hw : ∀ i, y i = none → w i = 0) (f : Fin ny → ℝ) :
    ∑ i : Obs y, w i.1 * f i.1 = ∑ i, w i * f i := by
  rw [← Finset.sum_subtype (Finset.univ.filter fun i => (y i).isNone = false) (by simp) fun i => w i * f i, Finset.sum_filter]
  refine Finset.sum_congr rfl fun i _ => ?_
  split_ifs with h
  · rfl
  · rw [hw i (by simpa using h), zero_mul]

/-- One step of the exact filter reproduces what is observed without noise. -/
theorem kfStep_exact {k : KF nx} (hk : IsGram k.P) {s : Step nx ny} (hs : ScanOk s) {w : Fin ny → ℝ} (hw : NoiseFree s w) :
    w ⬝ᵥ (s.H *ᵥ (kfStep k s).m + s.d) = ∑ i, w i * (s.y i).getD 0 ∧ (w ᵥ* s.H) ᵥ* (kfStep k s).P = 0 := by
  have hS := innov_det hk s hs
  obtain ⟨v, hv⟩ : ∃ v : Obs s.y → ℝ, v = fun i => w i.1 := ⟨_, rfl⟩
  have hL : v ᵥ* obsL s.y s.cholR = 0 := by
    funext j
    have := congrFun hw.exact j
    rw [hv]
    exact (sum_obs hw.observed fun i => s.cholR i j).trans this
  have hR : v ᵥ* s.R = 0 := by rw [Step.R, ← vecMul_vecMul, hL, zero_vecMul]
  have hH : v ᵥ* obsH s.y s.H = w ᵥ* s.H := by
    funext j
    rw [hv]
    exact sum_obs hw.observed fun i => s.H i j
  constructor
  · have h := dot_condMean hS hR (s.F *ᵥ k.m + s.c) (obsV s.y s.d) (obsY s.y)
    rw [hv] at h
    exact (sum_obs hw.observed fun i => (s.H *ᵥ (kfStep k s).m + s.d) i).symm.trans
      (h.trans (sum_obs hw.observed fun i => (s.y i).getD 0))
  · rw [← hH]
    exact (vecMul_condCov hS hR).2

theorem vecMul_factor {a : Fin nx → ℝ} {L P : Matrix (Fin nx) (Fin nx) ℝ} (h : L * Lᵀ = P) (ha : a ᵥ* P = 0) : a ᵥ* L = 0 := by
  have : (a ᵥ* L) ⬝ᵥ (a ᵥ* L) = 0 := by
    conv_lhs => rw [← mulVec_transpose L a, dotProduct_mulVec, mulVec_transpose, vecMul_vecMul, h, ha, zero_dotProduct]
  exact dotProduct_self_eq_zero.mp this

theorem kfAt_gram_scan (cb : Callbacks nx ny Inp) (u₀ : Inp) (us : List Inp) (hok : ∀ u ∈ us, ScanOk (stepOf cb u)) (t : ℕ) :
    IsGram (kfAt cb u₀ us t).P :=
  kf_gram _ (isGram_of _) fun s hs => by
    obtain ⟨u, hu, rfl⟩ := List.mem_map.mp hs
    exact hok u (List.mem_of_mem_take hu)

/-- The results of the filter in covariance form, for models in which the observations may be without noise. -/
theorem filter_run_scan (qr : QR) (rng : Prng K) (cb : Callbacks nx ny Inp) (u₀ : Inp) (us : List Inp)
    (parallel : Bool) (key : Option K) (hok : ∀ u ∈ us, ScanOk (stepOf cb u)) :
    ∃ states, (filter rng (buildFilter qr cb) (u₀ :: us) parallel key).result = .ok states ∧
      states.length = us.length + 1 ∧ ∀ t ≤ us.length, ∃ s, states[t]? = some s ∧
        s.mean = some (kfAt cb u₀ us t).m ∧
        (∃ L, s.cholCov = some L ∧ L * Lᵀ = (kfAt cb u₀ us t).P) ∧
        (IsLower (cb.getInit u₀).2 → ∀ l, s.logNormalizingConstant = some l → l = (kfAt cb u₀ us t).l) := by
  cases parallel with
  | false =>
    obtain ⟨states, hst, hrun⟩ := filter_sequential_is_online_run rng (buildFilter (K := K) qr cb)
      (u₀ :: us) key (by simp)
    refine ⟨states, hst, by simpa using hrun.length_eq, fun t ht => ?_⟩
    obtain ⟨s, e, hs, he, hr, -, hell, -⟩ := run_invariant qr cb u₀ us _ states hrun t ht
      fun u hu => hok u (List.mem_of_mem_take hu)
    refine ⟨s, hs, by simp only [FilterState.mean, he, Option.map_some]; rw [hr.b]; rfl,
      ⟨e.U, by simp [FilterState.cholCov, he], hr.C⟩, fun hl l h => (hell hl).2 l ?_⟩
    simpa [FilterState.logNormalizingConstant, he] using h
  | true =>
    obtain ⟨states, hst, hlen, hinv⟩ := parallel_invariant qr rng cb u₀ us key hok False (fun h => h.elim)
    refine ⟨states, hst, hlen, fun t ht => ?_⟩
    obtain ⟨s, hs, e, he, hr, hell, -⟩ := hinv t ht
    have he' : s.elem = some e := he
    refine ⟨s, hs, by simp only [FilterState.mean, he', Option.map_some]; rw [hr.b]; rfl,
      ⟨e.U, by simp [FilterState.cholCov, he'], hr.C⟩, fun hl l h => (hell hl).2 l ?_⟩
    simpa [FilterState.logNormalizingConstant, he'] using h

/-- **C141** (filter). Suppose that process noise and observation noise together reach all observed components (`H Q Hᵀ + R`
nonsingular; `R` may be zero). Then the filter returns numbers, in both modes, and what is observed without noise is
reproduced: for each combination `w` of the observed components that is free of noise, `wᵀ(H m + d) = wᵀy` and the filtering
law has no variance in that direction, `wᵀ H L = 0`. -/
theorem filter_reproduces_noise_free (qr : QR) (rng : Prng K) (cb : Callbacks nx ny Inp) (u₀ : Inp) (us : List Inp) (parallel : Bool)
    (key : Option K) (hok : ∀ u ∈ us, ((stepOf cb u).R + obsH (stepOf cb u).y (stepOf cb u).H *
      ((stepOf cb u).cholQ * ((stepOf cb u).cholQ)ᵀ) * (obsH (stepOf cb u).y (stepOf cb u).H)ᵀ).det ≠ 0) :
    ∃ states, (filter rng (buildFilter qr cb) (u₀ :: us) parallel key).result = .ok states ∧ states.length = us.length + 1 ∧
      ∀ t s, states[t]? = some s → ∃ m L, s.mean = some m ∧ s.cholCov = some L ∧
        ∀ t' u, t = t' + 1 → us[t']? = some u → ∀ w, NoiseFree (stepOf cb u) w →
          w ⬝ᵥ ((stepOf cb u).H *ᵥ m + (stepOf cb u).d) = ∑ i, w i * ((stepOf cb u).y i).getD 0 ∧
            w ᵥ* ((stepOf cb u).H * L) = 0 := by
  have hok' : ∀ u ∈ us, ScanOk (stepOf cb u) := fun u hu => by
    rw [ScanOk, innovCov, add_comm]
    exact hok u hu
  obtain ⟨states, hst, hlen, hf⟩ := filter_run_scan qr rng cb u₀ us parallel key hok'
  refine ⟨states, hst, hlen, fun t s hs => ?_⟩
  have ht : t ≤ us.length := by
    have := (List.getElem?_eq_some_iff.mp hs).1
    omega
  obtain ⟨s', h1, h2, ⟨L, h3, h4⟩, -⟩ := hf t ht
  rw [hs, Option.some.injEq] at h1
  subst h1
  refine ⟨_, L, h2, h3, ?_⟩
  rintro t' u rfl hu w hw
  rw [kfAt_succ cb u₀ us t' u hu] at h4 ⊢
  obtain ⟨e1, e2⟩ := kfStep_exact (kfAt_gram_scan cb u₀ us hok' t') (hok' u (List.mem_of_getElem? hu)) hw
  exact ⟨e1, by rw [← vecMul_vecMul]; exact vecMul_factor h4 e2⟩

/-! ## Smoother -/

theorem rts_exact : ∀ (ss : List (Step nx ny)) (k : KF nx) (a : Fin nx → ℝ), a ᵥ* k.P = 0 →
    a ⬝ᵥ (rts k ss).1 = a ⬝ᵥ k.m ∧ a ᵥ* (rts k ss).2 = 0
  | [], _, _, h => ⟨rfl, h⟩
  | s :: ss, k, a, h => by
    constructor
    · rw [rts, condMean, dotProduct_add, dotProduct_mulVec, h, zero_dotProduct, add_zero]
    · rw [rts, vecMul_add, condCov, vecMul_sub]
      simp only [← vecMul_vecMul, h, zero_vecMul, sub_zero, add_zero]

/-- The results of the smoother are those of the recursion of Rauch, Tung and Striebel. -/
theorem smoother_run_rts (qr : QR) (rng rng' : Prng K) (cb : Callbacks nx ny Inp) (u₀ : Inp) (us : List Inp)
    (hus : us ≠ []) (parallel parallel' : Bool) (key key' : Option K) (opts : SmootherOpts nx Inp)
    (hok : ∀ u ∈ us, ScanOk (stepOf cb u)) (filterStates : List (FilterState nx Inp))
    (hf : (filter rng (buildFilter qr cb) (u₀ :: us) parallel key).result = .ok filterStates)
    (hP : ∀ (t : ℕ) s L u, filterStates[t]? = some s → s.cholCov = some L → us[t]? = some u →
      ((stepOf cb u).F * (L * Lᵀ) * ((stepOf cb u).F)ᵀ + (stepOf cb u).cholQ * ((stepOf cb u).cholQ)ᵀ).det ≠ 0) :
    ∃ states, (smoother rng' FilterState.modelInputs (fun u => .ok (opts.dummy u))
        (buildSmoother qr cb.getDynamics opts) filterStates none parallel' key').result = .ok states ∧
      states.length = us.length + 1 ∧
      ∀ t ≤ us.length, ∃ s L, states[t]? = some s ∧ s.mean = some (rts (kfAt cb u₀ us t) ((us.drop t).map (stepOf cb))).1 ∧
        s.cholCov = some L ∧ L * Lᵀ = (rts (kfAt cb u₀ us t) ((us.drop t).map (stepOf cb))).2 := by
  obtain ⟨st, LT, h1, h2, h3, h4⟩ := smoother_run_facts qr rng rng' cb u₀ us hus parallel parallel' key key' opts
    hok filterStates hf hP none (.inl rfl)
  refine ⟨st, h1, h2, fun t ht => ?_⟩
  obtain ⟨s', e, bs, h5, h6, h7, h8, -⟩ := h4 t ht
  have hfold : kfAt cb u₀ us us.length = ((us.drop t).map (stepOf cb)).foldl kfStep (kfAt cb u₀ us t) := by
    rw [kfAt, kfAt, ← List.foldl_append, ← List.map_append, List.take_append_drop, List.take_length]
  rw [backMarg_rts _ _ bs _ LT h7 (by rw [hfold]) (by rw [h3, hfold])] at h8
  simp only [sForm, SElem.mk.injEq] at h8
  exact ⟨s', e.D, h5, by simp [SmootherState.mean, h6, h8.1], by simp [SmootherState.cholCov, h6], h8.2.2⟩

/-- **C141** (smoother). So does the smoother, if the predictive covariances are nonsingular. -/
theorem smoother_reproduces_noise_free (qr : QR) (rng rng' : Prng K) (cb : Callbacks nx ny Inp) (u₀ : Inp) (us : List Inp)
    (hus : us ≠ []) (parallel parallel' : Bool) (key key' : Option K) (opts : SmootherOpts nx Inp)
    (hok : ∀ u ∈ us, ((stepOf cb u).R + obsH (stepOf cb u).y (stepOf cb u).H *
      ((stepOf cb u).cholQ * ((stepOf cb u).cholQ)ᵀ) * (obsH (stepOf cb u).y (stepOf cb u).H)ᵀ).det ≠ 0)
    (filterStates : List (FilterState nx Inp))
    (hf : (filter rng (buildFilter qr cb) (u₀ :: us) parallel key).result = .ok filterStates)
    (hP : ∀ (t : ℕ) s L u, filterStates[t]? = some s → s.cholCov = some L → us[t]? = some u →
      ((stepOf cb u).F * (L * Lᵀ) * ((stepOf cb u).F)ᵀ + (stepOf cb u).cholQ * ((stepOf cb u).cholQ)ᵀ).det ≠ 0) :
    ∃ states, (smoother rng' FilterState.modelInputs (fun u => .ok (opts.dummy u))
        (buildSmoother qr cb.getDynamics opts) filterStates none parallel' key').result = .ok states ∧
      states.length = us.length + 1 ∧
      ∀ t s, states[t]? = some s → ∃ m L, s.mean = some m ∧ s.cholCov = some L ∧
        ∀ t' u, t = t' + 1 → us[t']? = some u → ∀ w, NoiseFree (stepOf cb u) w →
          w ⬝ᵥ ((stepOf cb u).H *ᵥ m + (stepOf cb u).d) = ∑ i, w i * ((stepOf cb u).y i).getD 0 ∧
            w ᵥ* ((stepOf cb u).H * L) = 0 := by
  have hok' : ∀ u ∈ us, ScanOk (stepOf cb u) := fun u hu => by
    rw [ScanOk, innovCov, add_comm]
    exact hok u hu
  obtain ⟨states, hst, hlen, hr⟩ := smoother_run_rts qr rng rng' cb u₀ us hus parallel parallel' key key' opts hok' filterStates hf hP
  refine ⟨states, hst, hlen, fun t s hs => ?_⟩
  have ht : t ≤ us.length := by
    have := (List.getElem?_eq_some_iff.mp hs).1
    omega
  obtain ⟨s', L, h1, h2, h3, h4⟩ := hr t ht
  rw [hs, Option.some.injEq] at h1
  subst h1
  refine ⟨_, L, h2, h3, ?_⟩
  rintro t' u rfl hu w hw
  obtain ⟨e1, e2⟩ := kfStep_exact (kfAt_gram_scan cb u₀ us hok' t') (hok' u (List.mem_of_getElem? hu)) hw
  rw [← kfAt_succ cb u₀ us t' u hu] at e1 e2
  obtain ⟨r1, r2⟩ := rts_exact ((us.drop (t' + 1)).map (stepOf cb)) _ _ e2
  refine ⟨?_, by rw [← vecMul_vecMul]; exact vecMul_factor h4 r2⟩
  rw [← e1, dotProduct_add, dotProduct_add, dotProduct_mulVec, dotProduct_mulVec, r1]

/-! ## The log normalising constant -/

/-- **C141** (the full claim is false for the log normalising constant). After an observation that has a nontrivial noise-free
combination, all log normalising constants are NaN, in both modes. -/
theorem log_normalizer_nan_after_noise_free (qr : QR) (rng : Prng K) (cb : Callbacks nx ny Inp) (u₀ : Inp) (us : List Inp)
    (parallel : Bool) (key : Option K)
    (hok : ∀ u ∈ us, ((stepOf cb u).R + obsH (stepOf cb u).y (stepOf cb u).H *
      ((stepOf cb u).cholQ * ((stepOf cb u).cholQ)ᵀ) * (obsH (stepOf cb u).y (stepOf cb u).H)ᵀ).det ≠ 0)
    (hlow : IsLower (cb.getInit u₀).2) {states : List (FilterState nx Inp)}
    (hf : (filter rng (buildFilter qr cb) (u₀ :: us) parallel key).result = .ok states) {t t' : ℕ} {u : Inp}
    (hu : us[t']? = some u) {w : Fin ny → ℝ} (hw : NoiseFree (stepOf cb u) w) (hne : w ᵥ* (stepOf cb u).H ≠ 0) (ht : t' + 1 < t)
    {s : FilterState nx Inp} (hs : states[t]? = some s) : s.logNormalizingConstant = none := by
  have hok' : ∀ u ∈ us, ScanOk (stepOf cb u) := fun u hu => by
    rw [ScanOk, innovCov, add_comm]
    exact hok u hu
  have hlen : states.length = us.length + 1 := by
    obtain ⟨states', h1, h2, -⟩ := filter_run_scan qr rng cb u₀ us parallel key hok'
    rw [hf] at h1
    rw [Except.ok.inj h1, h2]
  have htl : t ≤ us.length := by
    have := (List.getElem?_eq_some_iff.mp hs).1
    omega
  by_contra hfin
  have hdet : (kfAt cb u₀ us (t' + 1)).P.det ≠ 0 := by
    cases parallel with
    | false =>
      obtain ⟨seq, hseq, hrun⟩ := filter_sequential_is_online_run rng (buildFilter (K := K) qr cb) (u₀ :: us) key (by simp)
      rw [hf] at hseq
      obtain rfl := Except.ok.inj hseq
      exact sequential_finite_det qr cb u₀ us hok' hlow hrun t htl s hs hfin _ ht
    | true => exact parallel_finite_det qr rng cb u₀ us key hok' hlow states hf t htl s hs hfin _ ht
  obtain ⟨-, e2⟩ := kfStep_exact (kfAt_gram_scan cb u₀ us hok' t') (hok' u (List.mem_of_getElem? hu)) hw
  rw [← kfAt_succ cb u₀ us t' u hu] at e2
  refine hne ?_
  have := congrArg (· ᵥ* (kfAt cb u₀ us (t' + 1)).P⁻¹) e2
  simpa [vecMul_vecMul, Matrix.mul_assoc, Matrix.mul_nonsing_inv _ (isUnit_iff_ne_zero.mpr hdet)] using this

/-! ## Noise that tends to zero -/

theorem _root_.Cuthbert.Kalman.SmoothModel.kfAt_scan {E : Type*} [NormedAddCommGroup E] [NormedSpace ℝ E] {n : WithTop ℕ∞} {U : Set E}
    {cb : E → Callbacks nx ny Inp} {u₀ : Inp} {us : List Inp} (h : SmoothModel n U cb u₀ us)
    (hok : ∀ θ ∈ U, ∀ u ∈ us, ScanOk (stepOf (cb θ) u)) : ∀ t ≤ us.length, SmoothKF n U fun θ => Kalman.kfAt (cb θ) u₀ us t := by
  intro t
  induction t with
  | zero => exact fun _ => ⟨h.mean, h.chol.mul h.chol.transpose, contDiffOn_const⟩
  | succ t ih =>
    intro ht
    have hu : us[t]? = some us[t] := List.getElem?_eq_getElem ht
    have e : ∀ θ, Kalman.kfAt (cb θ) u₀ us (t + 1) = kfStep (Kalman.kfAt (cb θ) u₀ us t) (stepOf (cb θ) us[t]) := fun θ =>
      kfAt_succ (cb θ) u₀ us t _ hu
    simp only [e]
    have hs := h.step us[t] (List.getElem_mem ht)
    obtain ⟨y, hy⟩ := hs.y
    have hss : ∀ θ, stepOf (cb θ) us[t] = ⟨(stepOf (cb θ) us[t]).F, (stepOf (cb θ) us[t]).c, (stepOf (cb θ) us[t]).cholQ,
        (stepOf (cb θ) us[t]).H, (stepOf (cb θ) us[t]).d, (stepOf (cb θ) us[t]).cholR, y⟩ := fun θ => by rw [← hy θ]
    have h0 := (ih (Nat.le_of_succ_le ht)).step_aux y hs.F hs.c hs.cholQ hs.H hs.d hs.cholR fun θ hθ => by
      have h1 := innov_det (kfAt_gram_scan (cb θ) u₀ us (hok θ hθ) t) (stepOf (cb θ) us[t]) (hok θ hθ _ (List.getElem_mem ht))
      rw [hss θ] at h1
      exact h1
    simpa only [← hss] using h0

/-- **C141** (limit). Let the model depend continuously on `θ ≥ 0`, for example with observation noise of size `θ`. The filter's
mean and covariance for `θ = 0` are the limits of those for `θ > 0`, which are those of the posterior distribution (C26); so are
the log normalising constants for `θ > 0` convergent, although that for `θ = 0` may be NaN. -/
theorem filter_noise_free_limit (qr : QR) (rng : Prng K) (cb : ℝ → Callbacks nx ny Inp) (u₀ : Inp) (us : List Inp)
    (parallel : Bool) (key : Option K) (h : SmoothModel 0 (Set.Ici 0) cb u₀ us)
    (hok : ∀ θ, 0 ≤ θ → ∀ u ∈ us, ((stepOf (cb θ) u).R + obsH (stepOf (cb θ) u).y (stepOf (cb θ) u).H *
      ((stepOf (cb θ) u).cholQ * ((stepOf (cb θ) u).cholQ)ᵀ) * (obsH (stepOf (cb θ) u).y (stepOf (cb θ) u).H)ᵀ).det ≠ 0)
    (states : ℝ → List (FilterState nx Inp))
    (hf : ∀ θ, 0 ≤ θ → (filter rng (buildFilter qr (cb θ)) (u₀ :: us) parallel key).result = .ok (states θ))
    (t : ℕ) (s : ℝ → FilterState nx Inp) (hs : ∀ θ, 0 ≤ θ → (states θ)[t]? = some (s θ)) :
    ∃ (m : ℝ → Fin nx → ℝ) (L : ℝ → Matrix (Fin nx) (Fin nx) ℝ) (l₀ : ℝ),
      (∀ θ, 0 ≤ θ → (s θ).mean = some (m θ) ∧ (s θ).cholCov = some (L θ)) ∧
      (∀ i, Tendsto (fun θ => m θ i) (𝓝[>] 0) (𝓝 (m 0 i))) ∧
      (∀ i j, Tendsto (fun θ => (L θ * (L θ)ᵀ) i j) (𝓝[>] 0) (𝓝 ((L 0 * (L 0)ᵀ) i j))) ∧
      ((∀ θ, 0 ≤ θ → IsLower ((cb θ).getInit u₀).2) → ∀ l : ℝ → ℝ, (∀ θ, 0 < θ → (s θ).logNormalizingConstant = some (l θ)) →
        Tendsto l (𝓝[>] 0) (𝓝 l₀)) := by
  have hok' : ∀ θ ∈ Set.Ici (0 : ℝ), ∀ u ∈ us, ScanOk (stepOf (cb θ) u) := fun θ hθ u hu => by
    rw [ScanOk, innovCov, add_comm]
    exact hok θ hθ u hu
  have key : ∀ θ, 0 ≤ θ → t ≤ us.length ∧ (s θ).mean = some (kfAt (cb θ) u₀ us t).m ∧
      (∃ L, (s θ).cholCov = some L ∧ L * Lᵀ = (kfAt (cb θ) u₀ us t).P) ∧
      (IsLower ((cb θ).getInit u₀).2 → ∀ l, (s θ).logNormalizingConstant = some l → l = (kfAt (cb θ) u₀ us t).l) := by
    intro θ hθ
    obtain ⟨states', h1, h2, h3⟩ := filter_run_scan qr rng (cb θ) u₀ us parallel key (hok' θ hθ)
    rw [hf θ hθ] at h1
    obtain rfl := Except.ok.inj h1
    have ht : t ≤ us.length := by
      have := (List.getElem?_eq_some_iff.mp (hs θ hθ)).1
      omega
    obtain ⟨s', hs', h4⟩ := h3 t ht
    rw [hs θ hθ] at hs'
    obtain rfl := Option.some.inj hs'
    exact ⟨ht, h4⟩
  have hk := h.kfAt_scan hok' t (key 0 le_rfl).1
  have hlim : ∀ f : ℝ → ℝ, ContDiffOn ℝ 0 f (Set.Ici 0) → Tendsto f (𝓝[>] 0) (𝓝 (f 0)) := fun f hc =>
    ((contDiffOn_zero.mp hc) 0 Set.self_mem_Ici).mono_left (nhdsWithin_mono _ Set.Ioi_subset_Ici_self)
  have hL : ∀ θ, ∃ L, 0 ≤ θ → (s θ).cholCov = some L ∧ L * Lᵀ = (kfAt (cb θ) u₀ us t).P := fun θ => by
    by_cases hθ : 0 ≤ θ
    · obtain ⟨L, h1⟩ := (key θ hθ).2.2.1
      exact ⟨L, fun _ => h1⟩
    · exact ⟨0, fun h => absurd h hθ⟩
  choose L hL using hL
  refine ⟨fun θ => (kfAt (cb θ) u₀ us t).m, L, (kfAt (cb 0) u₀ us t).l, fun θ hθ => ⟨(key θ hθ).2.1, (hL θ hθ).1⟩,
    fun i => hlim _ (hk.m i), fun i j => ?_, fun hlow l hl => ?_⟩
  · rw [(hL 0 le_rfl).2]
    refine (hlim _ (hk.P i j)).congr' ?_
    filter_upwards [self_mem_nhdsWithin] with θ hθ
    rw [(hL θ (le_of_lt hθ)).2]
  · refine (hlim _ hk.l).congr' ?_
    filter_upwards [self_mem_nhdsWithin] with θ hθ
    exact ((key θ (le_of_lt hθ)).2.2.2 (hlow θ (le_of_lt hθ)) _ (hl θ hθ)).symm

/-! ## An example -/

/-- Position and velocity of a vehicle; the position is observed with noise of size `θ`. -/
def vehicle (y θ : ℝ) : Callbacks 2 1 Unit where
  getInit _ := (0, 1)
  getDynamics _ := (!![1, 1; 0, 1], 0, 1)
  getObservation _ := (!![1, 0], 0, !![θ], fun _ => some y)

theorem exists_noise_free (y : ℝ) (us : List Unit) :
    SmoothModel 0 (Set.Ici 0) (vehicle y) () us ∧ (∀ θ u, IsLower ((vehicle y θ).getInit u).2) ∧
      (∀ θ u, ((stepOf (vehicle y θ) u).R + obsH (stepOf (vehicle y θ) u).y (stepOf (vehicle y θ) u).H *
        ((stepOf (vehicle y θ) u).cholQ * ((stepOf (vehicle y θ) u).cholQ)ᵀ) *
          (obsH (stepOf (vehicle y θ) u).y (stepOf (vehicle y θ) u).H)ᵀ).det ≠ 0) ∧
      (∀ u, NoiseFree (stepOf (vehicle y 0) u) 1 ∧ (1 : Fin 1 → ℝ) ᵥ* (stepOf (vehicle y 0) u).H ≠ 0) ∧
      ∀ θ u (L : Matrix (Fin 2) (Fin 2) ℝ), ((stepOf (vehicle y θ) u).F * (L * Lᵀ) * ((stepOf (vehicle y θ) u).F)ᵀ +
        (stepOf (vehicle y θ) u).cholQ * ((stepOf (vehicle y θ) u).cholQ)ᵀ).det ≠ 0 := by
  refine ⟨⟨fun i => contDiffOn_const, fun i j => contDiffOn_const, fun u _ => ?_⟩, ?_, ?_, ?_, ?_⟩
  · refine ⟨fun i j => contDiffOn_const, fun i => contDiffOn_const, fun i j => contDiffOn_const, fun i j => contDiffOn_const,
      fun i => contDiffOn_const, fun i j => ?_, _, fun θ => rfl⟩
    fin_cases i
    fin_cases j
    exact contDiffOn_id
  · intro θ u i j hij
    fin_cases i <;> fin_cases j <;> simp_all [vehicle]
  · intro θ u
    have e : (stepOf (vehicle y θ) u).R + obsH (stepOf (vehicle y θ) u).y (stepOf (vehicle y θ) u).H *
        ((stepOf (vehicle y θ) u).cholQ * ((stepOf (vehicle y θ) u).cholQ)ᵀ) *
          (obsH (stepOf (vehicle y θ) u).y (stepOf (vehicle y θ) u).H)ᵀ = (θ * θ + 1) • (1 : Matrix _ _ ℝ) := by
      ext ⟨i, hi⟩ ⟨j, hj⟩
      fin_cases i
      fin_cases j
      change ∑ k : Fin 1, !![θ] 0 k * !![θ] 0 k + ∑ k : Fin 2, (∑ l : Fin 2, !![(1 : ℝ), 0] 0 l *
        ∑ n : Fin 2, (1 : Matrix (Fin 2) (Fin 2) ℝ) l n * (1 : Matrix (Fin 2) (Fin 2) ℝ) k n) * !![(1 : ℝ), 0] 0 k =
          (θ * θ + 1) * (1 : Matrix (Obs (stepOf (vehicle y θ) u).y) (Obs (stepOf (vehicle y θ) u).y) ℝ) ⟨0, hi⟩ ⟨0, hj⟩
      rw [one_apply_eq]
      simp [Fin.sum_univ_two]
    rw [e, det_smul, det_one, mul_one]
    exact pow_ne_zero _ (ne_of_gt (by nlinarith [mul_self_nonneg θ]))
  · intro u
    refine ⟨⟨fun i hi => by simp [stepOf, vehicle] at hi, ?_⟩, fun h => ?_⟩
    · funext j
      fin_cases j
      simp [stepOf, vehicle, vecMul, dotProduct]
    · have := congrFun h 0
      simp [stepOf, vehicle, vecMul, dotProduct] at this
  · intro θ u L
    rw [add_comm]
    exact (isGram_of (1 : Matrix (Fin 2) (Fin 2) ℝ)).det_add_ne_zero (by simp) ((isGram_of L).conj _)

end

end Cuthbert.Kalman
