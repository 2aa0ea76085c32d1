import Verif.Props.Kalman

/-!
# Theorems about whole runs of the Kalman filter (C26, C27)
-/

namespace Cuthbert.Kalman
open MeasureTheory Matrix Cuthbert Cuthbert.Spec
open scoped ENNReal

noncomputable section

set_option linter.unusedSectionVars false

variable {nx ny : ℕ} {Inp K : Type*}

/-! ## C26 -/

theorem steps_take (cb : Callbacks nx ny Inp) (us : List Inp) (t : ℕ) (P : Step nx ny → Prop)
    (h : ∀ u ∈ us, P (stepOf cb u)) : ∀ s ∈ (us.take t).map (stepOf cb), P s := by
  intro s hs
  obtain ⟨u, hu, rfl⟩ := List.mem_map.mp hs
  exact h u (List.mem_of_mem_take hu)

/-- The covariance-form recursion is the exact filter. -/
theorem kfAt_exact (cb : Callbacks nx ny Inp) (u₀ : Inp) (us : List Inp)
    (hR : ∀ u ∈ us, (stepOf cb u).R.det ≠ 0) (t : ℕ) (ht : t ≤ us.length)
    (L : Matrix (Fin nx) (Fin nx) ℝ) (hL : L * Lᵀ = (kfAt cb u₀ us t).P)
    {φ : (Fin nx → ℝ) → ℝ≥0∞} (hφ : Measurable φ) :
    jointExp (cb.getInit u₀).1 (cb.getInit u₀).2 ((us.take t).map (stepOf cb)) (fun p => φ (p t)) =
      ENNReal.ofReal (Real.exp (kfAt cb u₀ us t).l) * ∫⁻ x, φ x ∂gauss (kfAt cb u₀ us t).m L := by
  have hl : ((us.take t).map (stepOf cb)).length = t := by simp [ht]
  have h := joint_split ((us.take t).map (stepOf cb)) t hl.ge
    (by rw [List.take_of_length_le hl.le]; exact steps_take cb us t _ hR)
    ⟨(cb.getInit u₀).1, (cb.getInit u₀).2 * ((cb.getInit u₀).2)ᵀ, 0⟩ (cb.getInit u₀).2 rfl L
    (by rw [List.take_of_length_le hl.le]; exact hL)
    (f := fun p => φ (p 0)) (hφ.comp (measurable_pi_apply 0))
  rw [List.take_of_length_le hl.le, List.drop_of_length_le hl.le] at h
  simp only [Nat.zero_add, pathExp, sub_zero] at h
  exact h

theorem kfAt_det (cb : Callbacks nx ny Inp) (u₀ : Inp) (us : List Inp)
    (hR : ∀ u ∈ us, (stepOf cb u).R.det ≠ 0)
    (hP0 : ((cb.getInit u₀).2 * ((cb.getInit u₀).2)ᵀ).det ≠ 0)
    (hFQ : ∀ u ∈ us, (stepOf cb u).F.det ≠ 0 ∨
      ((stepOf cb u).cholQ * ((stepOf cb u).cholQ)ᵀ).det ≠ 0) :
    ∀ t ≤ us.length, (kfAt cb u₀ us t).P.det ≠ 0 := by
  intro t
  induction t with
  | zero => intro _; simpa [kfAt] using hP0
  | succ t ih =>
    intro ht
    have htl : t < us.length := ht
    have hut : us[t]? = some us[t] := List.getElem?_eq_getElem htl
    have hm : us[t] ∈ us := List.getElem_mem htl
    rw [kfAt_succ cb u₀ us t _ hut]
    have hg : IsGram (kfAt cb u₀ us t).P :=
      kf_gram _ (isGram_of _) (steps_take cb us t _ fun u hu => ScanOk.of_R _ (hR u hu))
    refine condCov_det (pred_gram hg _) (Step.R_gram _) ?_ (hR _ hm)
    rcases hFQ _ hm with h | h
    · refine (hg.conj _).det_add_ne_zero ?_ (isGram_of _)
      rw [Matrix.det_mul, Matrix.det_mul, Matrix.det_transpose]
      exact mul_ne_zero (mul_ne_zero h (ih htl.le)) h
    · rw [add_comm]
      exact (isGram_of _).det_add_ne_zero h (hg.conj _)

/-- **C26.** The Kalman filter is exact, sequentially and in parallel. For every linear-Gaussian model
whose observed components have nonsingular noise covariance (`P0`, `Q` and `F` arbitrary), every number of
steps and every pattern of missing data: every state has a finite mean `m` and factor `L`, and the law of
`x_t` weighted by the likelihood of `y_1, …, y_t` is `exp(l)` times `N(m, L Lᵀ)`; so `N(m, L Lᵀ)` is
`p(x_t | y_1..y_t)` and `l = log p(y_1..y_t)`. The log normalising constant returned is NaN or exactly `l`
when `chol_P0` is lower triangular. It is not NaN if in addition `P0` is nonsingular and, in every step,
`Q` is nonsingular (or, for the sequential filter, `F` or `Q` is). -/
theorem kalman_filter_exact (qr : QR) (rng : Prng K) (cb : Callbacks nx ny Inp) (u₀ : Inp)
    (us : List Inp) (parallel : Bool) (key : Option K)
    (hR : ∀ u ∈ us, (stepOf cb u).R.det ≠ 0) :
    ∃ states, (filter rng (buildFilter qr cb) (u₀ :: us) parallel key).result = .ok states ∧
      states.length = us.length + 1 ∧
      ∀ t ≤ us.length, ∃ s m L l, states[t]? = some s ∧ s.mean = some m ∧ s.cholCov = some L ∧
        (∀ φ : (Fin nx → ℝ) → ℝ≥0∞, Measurable φ →
          jointExp (cb.getInit u₀).1 (cb.getInit u₀).2 ((us.take t).map (stepOf cb)) (fun p => φ (p t)) =
            ENNReal.ofReal (Real.exp l) * ∫⁻ x, φ x ∂gauss m L) ∧
        (IsLower (cb.getInit u₀).2 →
          (∀ l', s.logNormalizingConstant = some l' → l' = l) ∧
          ((∀ i, (cb.getInit u₀).2 i i ≠ 0) →
            (∀ u ∈ us, (parallel = false ∧ (stepOf cb u).F.det ≠ 0) ∨
              ((stepOf cb u).cholQ * ((stepOf cb u).cholQ)ᵀ).det ≠ 0) →
            s.logNormalizingConstant = some l)) := by
  have hok : ∀ u ∈ us, ScanOk (stepOf cb u) := fun u hu => ScanOk.of_R _ (hR u hu)
  cases parallel with
  | false =>
    obtain ⟨states, hst, hrun⟩ := filter_sequential_is_online_run rng (buildFilter (K := K) qr cb)
      (u₀ :: us) key (by simp)
    refine ⟨states, hst, by simpa using hrun.length_eq, fun t ht => ?_⟩
    obtain ⟨s, e, hs, he, hr, -, hell, hfin⟩ := run_invariant qr cb u₀ us _ states hrun t ht
      fun u hu => hok u (List.mem_of_mem_take hu)
    refine ⟨s, e.b, e.U, (kfAt cb u₀ us t).l, hs, by simp [FilterState.mean, he],
      by simp [FilterState.cholCov, he], ?_, ?_⟩
    · intro φ hφ
      rw [show e.b = (kfAt cb u₀ us t).m from hr.b]
      exact kfAt_exact cb u₀ us hR t ht e.U hr.C hφ
    · intro hlow
      have hl : s.logNormalizingConstant = e.ell := by simp [FilterState.logNormalizingConstant, he]
      refine ⟨fun l' h => (hell hlow).2 l' (hl ▸ h), fun hd hFQ => ?_⟩
      have hne := hfin hlow fun t' ht' => kfAt_det cb u₀ us hR (hlow.diag_ne_zero_iff_gram.mp hd)
        (fun u hu => (hFQ u hu).imp (fun h => h.2) id) t' (ht'.le.trans ht)
      obtain ⟨l, hl'⟩ := Option.ne_none_iff_exists'.mp hne
      rw [hl, hl', (hell hlow).2 l hl']
  | true =>
    obtain ⟨states, hst, hlen, hinv⟩ := parallel_invariant qr rng cb u₀ us key hok
      ((∀ i, (cb.getInit u₀).2 i i ≠ 0) ∧ IsLower (cb.getInit u₀).2 ∧
        ∀ u ∈ us, ((stepOf cb u).cholQ * ((stepOf cb u).cholQ)ᵀ).det ≠ 0)
      (fun h => ⟨h.2.1.diag_ne_zero_iff_gram.mp h.1, fun u hu =>
        condCov_det (isGram_of _) (Step.R_gram _) (h.2.2 u hu) (hR u hu)⟩)
    refine ⟨states, hst, hlen, fun t ht => ?_⟩
    obtain ⟨s, hs, e, he, hr, hell, hfin⟩ := hinv t ht
    have he' : s.elem = some e := he
    refine ⟨s, e.b, e.U, (kfAt cb u₀ us t).l, hs, by simp [FilterState.mean, he'],
      by simp [FilterState.cholCov, he'], ?_, ?_⟩
    · intro φ hφ
      rw [show e.b = (kfAt cb u₀ us t).m from hr.b]
      exact kfAt_exact cb u₀ us hR t ht e.U hr.C hφ
    · intro hlow
      have hl : s.logNormalizingConstant = e.ell := by simp [FilterState.logNormalizingConstant, he']
      refine ⟨fun l' h => (hell hlow).2 l' (hl ▸ h), fun hd hFQ => ?_⟩
      have hne := (hfin hlow ⟨hd, hlow, fun u hu => (hFQ u hu).resolve_left (by simp)⟩).1
      obtain ⟨l, hl'⟩ := Option.ne_none_iff_exists'.mp hne
      rw [hl, hl', (hell hlow).2 l hl']
      rfl

/-- Non-vacuity for C26: full-rank observation noise meets the hypothesis, whatever is missing. -/
example (cb : Callbacks nx ny Inp) (us : List Inp)
    (h : ∀ u ∈ us, ((stepOf cb u).cholR * ((stepOf cb u).cholR)ᵀ).det ≠ 0) :
    ∀ u ∈ us, (stepOf cb u).R.det ≠ 0 := fun u hu => obsR_det _ _ (h u hu)

/-! ## C27 -/

/-- The claim of C27 for one model: both modes return the same log normalising constants and none of them
is NaN. -/
def LogLikelihoodsAgree (qr : QR) (rng : Prng K) (key : Option K) (cb : Callbacks nx ny Inp)
    (inputs : List Inp) : Prop :=
  ∃ seq par : List (FilterState nx Inp),
    (filter rng (buildFilter qr cb) inputs false key).result = .ok seq ∧
    (filter rng (buildFilter qr cb) inputs true key).result = .ok par ∧
    seq.map (·.logNormalizingConstant) = par.map (·.logNormalizingConstant) ∧
    ∀ s ∈ seq, s.logNormalizingConstant ≠ none

/-- **C27** (what holds). With full-rank initial, process and observation noise and a lower triangular
initial factor the claim holds. Missing from the full claim: singular `P0` and singular `Q`, for which it
is false, see the two theorems below. -/
theorem log_likelihoods_agree_partial (qr : QR) (rng : Prng K) (cb : Callbacks nx ny Inp) (u₀ : Inp)
    (us : List Inp) (key : Option K)
    (hP0 : IsLower (cb.getInit u₀).2) (hP0d : ∀ i, (cb.getInit u₀).2 i i ≠ 0)
    (hQ : ∀ u ∈ us, ((stepOf cb u).cholQ * ((stepOf cb u).cholQ)ᵀ).det ≠ 0)
    (hR : ∀ u ∈ us, (stepOf cb u).R.det ≠ 0) :
    LogLikelihoodsAgree qr rng key cb (u₀ :: us) := by
  obtain ⟨seq, hseq, hl1, h1⟩ := kalman_filter_exact qr rng cb u₀ us false key hR
  obtain ⟨par, hpar, hl2, h2⟩ := kalman_filter_exact qr rng cb u₀ us true key hR
  have h := (kalman_parallel_log_likelihood qr rng cb u₀ us key hP0 hP0d hQ hR).1
  rw [hseq, hpar] at h
  simp only [Except.map, Except.ok.injEq] at h
  refine ⟨seq, par, hseq, hpar, ?_, ?_⟩
  · have := congrArg (List.map fun q => q.2.2) h
    simpa [List.map_map, Function.comp_def] using this.symm
  · intro s hs
    obtain ⟨t, ht⟩ := List.mem_iff_getElem?.mp hs
    have htl : t ≤ us.length := by
      have := (List.getElem?_eq_some_iff.mp ht).1
      omega
    obtain ⟨s', m, L, l, hs', -, -, -, hf⟩ := h1 t htl
    rw [ht, Option.some.injEq] at hs'
    subst hs'
    rw [(hf hP0).2 hP0d fun u hu => Or.inr (hQ u hu)]
    simp

/-- A scalar random walk observed in unit noise; `p0` and `q` are the standard deviations of the initial
state and of the process noise. All observations are zero. -/
def scalarModel (p0 q : ℝ) : Callbacks 1 1 Unit where
  getInit _ := (fun _ => 0, Matrix.of fun _ _ => p0)
  getDynamics _ := (1, fun _ => 0, Matrix.of fun _ _ => q)
  getObservation _ := (1, fun _ => 0, 1, fun _ => some 0)

theorem scalarModel_R (p0 q : ℝ) (u : Unit) : (stepOf (scalarModel p0 q) u).R.det ≠ 0 :=
  obsR_det _ _ (by simp [stepOf, scalarModel])

/-- A combination is NaN when the left factor has a zero on the diagonal or the right log-likelihood is
NaN. -/
theorem combine_nan (qr : QR) (a b : FilterState nx Inp) (ea eb : FilterElem nx) (ha : a.elem = some ea)
    (hb : b.elem = some eb) (h : (∃ i, ea.U i i = 0) ∨ b.logNormalizingConstant = none) :
    (filterCombine qr a b).logNormalizingConstant = none ∧ ∃ e, (filterCombine qr a b).elem = some e := by
  obtain ⟨e, he, -, -, -, h1, -, h3⟩ := filteringOperator_eq qr (repr_covForm ea) (repr_covForm eb)
  have hc : (filterCombine qr a b).elem = some e := by
    simp only [filterCombine, ha, hb]; exact he
  refine ⟨?_, e, hc⟩
  simp only [FilterState.logNormalizingConstant, hc, Option.bind_some]
  rcases h with h | h
  · exact h1 h
  · refine h3 ?_
    simpa [FilterState.logNormalizingConstant, hb] using h

/-- **C27** (counterexample 1). With a known initial state (`P0 = 0`) and full-rank process and observation
noise, the evidence is finite but both modes return NaN from the first step on. -/
theorem log_likelihood_nan_known_initial_state (qr : QR) (rng : Prng K) (key : Option K)
    (parallel : Bool) : ∃ s₀ s₁ : FilterState 1 Unit,
      (filter rng (buildFilter qr (scalarModel 0 1)) [(), ()] parallel key).result = .ok [s₀, s₁] ∧
      s₁.logNormalizingConstant = none ∧
      ¬ LogLikelihoodsAgree qr rng key (scalarModel 0 1) [(), ()] := by
  have hseq : (filter rng (buildFilter qr (scalarModel 0 1)) [(), ()] false key).result =
      .ok [initPrepare (scalarModel 0 1) (), filterCombine qr (initPrepare (scalarModel 0 1) ())
        (filterPrepare qr (scalarModel 0 1) ())] := by
    rw [filter_sequential_eq, filterElems_eq]; rfl
  have hpar : (filter rng (buildFilter qr (scalarModel 0 1)) [(), ()] true key).result =
      .ok [initPrepare (scalarModel 0 1) (), filterCombine qr (initPrepare (scalarModel 0 1) ())
        (filterPrepare qr (scalarModel 0 1) ())] := by
    rw [filter_parallel_eq, filterElems_eq]
    simp only [List.map_cons, List.map_nil]
    rw [associativeScan_cons_cons]
    simp [pairUp, associativeScan_singleton, interleave, everyOther]
    exact ⟨rfl, rfl⟩
  obtain ⟨e, he, -⟩ := filterParams_eq qr (stepOf (scalarModel 0 1) ()).F (stepOf (scalarModel 0 1) ()).c
    (stepOf (scalarModel 0 1) ()).cholQ (stepOf (scalarModel 0 1) ()).H (stepOf (scalarModel 0 1) ()).d
    (stepOf (scalarModel 0 1) ()).cholR (stepOf (scalarModel 0 1) ()).y (ScanOk.of_R _ (scalarModel_R 0 1 ()))
  have hn := (combine_nan qr (initPrepare (scalarModel 0 1) ()) (filterPrepare qr (scalarModel 0 1) ())
    _ e rfl he (Or.inl ⟨0, rfl⟩)).1
  refine ⟨_, _, by cases parallel; exacts [hseq, hpar], hn, ?_⟩
  rintro ⟨seq, par, h1, -, -, h4⟩
  rw [hseq, Except.ok.injEq] at h1
  exact h4 _ (by rw [← h1]; simp) hn

/-- **C27** (counterexample 2). With a static state (`Q = 0`) the sequential filter returns finite log
normalising constants while the parallel filter returns NaN at the third step. -/
theorem log_likelihood_nan_static_state (qr : QR) (rng : Prng K) (key : Option K) :
    ∃ seq par : List (FilterState 1 Unit),
      (filter rng (buildFilter qr (scalarModel 1 0)) [(), (), (), ()] false key).result = .ok seq ∧
      (filter rng (buildFilter qr (scalarModel 1 0)) [(), (), (), ()] true key).result = .ok par ∧
      (∀ s ∈ seq, s.logNormalizingConstant ≠ none) ∧
      (∃ s, par[3]? = some s ∧ s.logNormalizingConstant = none) ∧
      ¬ LogLikelihoodsAgree qr rng key (scalarModel 1 0) [(), (), (), ()] := by
  obtain ⟨seq, hseq, hlen, h1⟩ := kalman_filter_exact qr rng (scalarModel 1 0) () [(), (), ()] false key
    fun u _ => scalarModel_R 1 0 u
  have hfin : ∀ s ∈ seq, s.logNormalizingConstant ≠ none := by
    intro s hs
    obtain ⟨t, ht⟩ := List.mem_iff_getElem?.mp hs
    have htl : t ≤ [(), (), ()].length := by
      have := (List.getElem?_eq_some_iff.mp ht).1
      omega
    obtain ⟨s', m, L, l, hs', -, -, -, hf⟩ := h1 t htl
    rw [ht, Option.some.injEq] at hs'
    subst hs'
    rw [(hf fun i j h => absurd h (by omega)).2 (fun i => by simp [scalarModel])
      fun u _ => Or.inl ⟨rfl, by simp [stepOf, scalarModel]⟩]
    simp
  obtain ⟨i, hi⟩ : ∃ i, i = initPrepare (scalarModel 1 0) () := ⟨_, rfl⟩
  obtain ⟨p, hp⟩ : ∃ p, p = filterPrepare qr (scalarModel 1 0) () := ⟨_, rfl⟩
  have hpar : (filter rng (buildFilter qr (scalarModel 1 0)) [(), (), (), ()] true key).result =
      .ok [i, filterCombine qr i p, filterCombine qr (filterCombine qr i p) p,
        filterCombine qr (filterCombine qr i p) (filterCombine qr p p)] := by
    rw [filter_parallel_eq, filterElems_eq]
    simp only [List.map_cons, List.map_nil]
    rw [associativeScan_cons_cons]
    simp only [pairUp]
    rw [associativeScan_cons_cons]
    simp [pairUp, associativeScan_singleton, interleave, everyOther]
    rw [hi, hp]
    exact ⟨rfl, rfl, rfl, rfl⟩
  obtain ⟨e, he, hr, -, -⟩ := filterParams_eq qr (stepOf (scalarModel 1 0) ()).F
    (stepOf (scalarModel 1 0) ()).c (stepOf (scalarModel 1 0) ()).cholQ (stepOf (scalarModel 1 0) ()).H
    (stepOf (scalarModel 1 0) ()).d (stepOf (scalarModel 1 0) ()).cholR (stepOf (scalarModel 1 0) ()).y
    (ScanOk.of_R _ (scalarModel_R 1 0 ()))
  have hpe : p.elem = some e := by rw [hp]; exact he
  have hU : e.U 0 0 = 0 := by
    have h0 : e.U * e.Uᵀ = 0 := by
      rw [hr.C]
      have : (stepOf (scalarModel 1 0) ()).cholQ = 0 := by
        ext i j; simp [stepOf, scalarModel]
      simp [prepC, condCov, this]
    have := congrFun (congrFun h0 0) 0
    rw [Matrix.mul_apply] at this
    simpa using this
  obtain ⟨hpp, e₂, he₂⟩ := combine_nan qr p p e e hpe hpe (Or.inl ⟨0, hU⟩)
  obtain ⟨e₁, he₁⟩ : ∃ e₁, (filterCombine qr i p).elem = some e₁ := by
    obtain ⟨e₁, h, -⟩ := filteringOperator_eq qr (repr_covForm ⟨0, fun _ => 0, Matrix.of fun _ _ => 1, 0, 0,
      some 0⟩) (repr_covForm e)
    refine ⟨e₁, ?_⟩
    rw [hi]
    simp only [filterCombine, hpe]
    exact h
  have hnan := (combine_nan qr _ _ e₁ e₂ he₁ he₂ (Or.inr hpp)).1
  refine ⟨seq, _, hseq, hpar, hfin, ⟨_, rfl, hnan⟩, ?_⟩
  rintro ⟨seq', par', h1', h2', h3', h4'⟩
  rw [hpar, Except.ok.injEq] at h2'
  have hmem : (none : Option ℝ) ∈ par'.map (·.logNormalizingConstant) := by
    rw [← h2']; simp [hnan]
  rw [← h3'] at hmem
  obtain ⟨s, hs, hn⟩ := List.mem_map.mp hmem
  exact h4' s hs hn

end

end Cuthbert.Kalman
