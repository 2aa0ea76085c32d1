import Verif.Lemmas.KalmanRun
import Verif.Lemmas.KalmanPar

/-!
# Theorems about the Kalman filter (C21 to C27)
-/

namespace Cuthbert.Kalman
open MeasureTheory Matrix Cuthbert Cuthbert.Spec
open scoped ENNReal

noncomputable section

set_option linter.unusedSectionVars false

variable {nx ny : ℕ} {Inp K : Type*}

/-! ## C21 -/

/-- **C21.** Pushing `N(m, P)` through the transition kernel `x ↦ N(F x + c, Q)` gives the law with the
mean and factor returned by `predict`; no factor needs to be nonsingular or triangular. -/
theorem predict_exact {nx' : ℕ} (qr : QR) (m : Fin nx → ℝ) (cholP : Matrix (Fin nx) (Fin nx) ℝ)
    (F : Matrix (Fin nx') (Fin nx) ℝ) (c : Fin nx' → ℝ) (cholQ : Matrix (Fin nx') (Fin nx') ℝ) :
    (gauss m cholP).bind (fun x => gauss (F *ᵥ x + c) cholQ) =
      gauss (predict qr m cholP F c cholQ).1 (predict qr m cholP F c cholQ).2 := by
  refine measure_ext_lintegral fun f hf => ?_
  rw [Measure.lintegral_bind (measurable_gauss_kernel F c cholQ).aemeasurable hf.aemeasurable]
  exact gauss_predict m cholP F c cholQ (predict_gram qr m cholP F c cholQ) hf

/-- **C21** (shape). The returned factor is lower triangular. -/
theorem predict_lower {nx' : ℕ} (qr : QR) (m : Fin nx → ℝ) (cholP : Matrix (Fin nx) (Fin nx) ℝ)
    (F : Matrix (Fin nx') (Fin nx) ℝ) (c : Fin nx' → ℝ) (cholQ : Matrix (Fin nx') (Fin nx') ℝ) :
    IsLower (predict qr m cholP F c cholQ).2 := triaSq_lower qr _ (Nat.le_add_left _ _)

/-! ## C22 -/

/-- **C22.** Bayes' rule with exact evidence, for every `P`, `R` (singular ones included) whose innovation
covariance is nonsingular: drawing `x ~ N(m, P)` and then `y ~ N(H x + d, R)` is the same as drawing `y`
with Lebesgue density `exp(ell(y))` and then `x` from the law with the mean and factor returned by
`update` for that `y`. -/
theorem update_bayes (qr : QR) (m : Fin nx → ℝ) (cholP : Matrix (Fin nx) (Fin nx) ℝ)
    (H : Matrix (Fin ny) (Fin nx) ℝ) (d : Fin ny → ℝ) (cholR : Matrix (Fin ny) (Fin ny) ℝ)
    (hS : (H * (cholP * cholPᵀ) * Hᵀ + cholR * cholRᵀ).det ≠ 0) :
    ∃ (mean : (Fin ny → ℝ) → Fin nx → ℝ) (ell : (Fin ny → ℝ) → ℝ),
      (∀ y : Fin ny → ℝ, (update qr m cholP H d cholR fun i => some (y i)).mean = some (mean y) ∧
        (update qr m cholP H d cholR fun i => some (y i)).ell = some (ell y)) ∧
      ∀ f : (Fin ny → ℝ) × (Fin nx → ℝ) → ℝ≥0∞, Measurable f →
        ∫⁻ x, ∫⁻ y, f (y, x) ∂gauss (H *ᵥ x + d) cholR ∂gauss m cholP =
          ∫⁻ y, ENNReal.ofReal (Real.exp (ell y)) *
            ∫⁻ x, f (y, x) ∂gauss (mean y) (update qr m cholP H d cholR fun i => some (y i)).chol := by
  refine ⟨fun y => condMean m (cholP * cholPᵀ) H d (cholR * cholRᵀ) y,
    fun y => gaussLogDensity (H *ᵥ m + d) (innovCov (cholP * cholPᵀ) H (cholR * cholRᵀ)) y, ?_, ?_⟩
  · intro y
    obtain ⟨h1, -, -, h4⟩ := update_full qr m cholP H d cholR y 0 hS
    refine ⟨h1, ?_⟩
    rw [h4, add_zero]
  · intro f hf
    obtain ⟨V, hV⟩ := (condCov_gram (H := H) (isGram_of cholP) (isGram_of cholR) hS).exists_sqrt
    rw [gauss_bayes m cholP H d cholR V hS hV hf]
    refine lintegral_congr fun y => ?_
    obtain ⟨-, h2, -, -⟩ := update_full qr m cholP H d cholR y 0 hS
    rw [gauss_eq_of_gram _ V _ (hV.trans h2.symm)]

/-- **C22** (pointwise, with missing components). For every observation whose observed components have
nonsingular noise, the prior weighted by the likelihood is `exp(ell)` times the posterior returned. -/
theorem update_bayes_pointwise (qr : QR) (m : Fin nx → ℝ) (cholP : Matrix (Fin nx) (Fin nx) ℝ)
    (H : Matrix (Fin ny) (Fin nx) ℝ) (d : Fin ny → ℝ) (cholR : Matrix (Fin ny) (Fin ny) ℝ)
    (y : Fin ny → Option ℝ) (hR : (obsL y cholR * (obsL y cholR)ᵀ).det ≠ 0) :
    ∃ my ell, (update qr m cholP H d cholR y).mean = some my ∧
      (update qr m cholP H d cholR y).ell = some ell ∧
      (gauss m cholP).withDensity (fun x => ENNReal.ofReal (Real.exp
        (gaussLogDensity (obsH y H *ᵥ x + obsV y d) (obsL y cholR * (obsL y cholR)ᵀ) (obsY y)))) =
        ENNReal.ofReal (Real.exp ell) • gauss my (update qr m cholP H d cholR y).chol := by
  have hd : (innovCov (cholP * cholPᵀ) (obsH y H) (obsL y cholR * (obsL y cholR)ᵀ)).det ≠ 0 := by
    rw [innovCov, add_comm]; exact (isGram_of (obsL y cholR)).det_add_ne_zero hR ((isGram_of cholP).conj _)
  obtain ⟨h1, h2, -, h4⟩ := update_eq qr m cholP H d cholR y 0 hd
  refine ⟨_, _, h1, h4, ?_⟩
  refine measure_ext_lintegral fun f hf => ?_
  have hm : Measurable fun x => ENNReal.ofReal (Real.exp (gaussLogDensity (obsH y H *ᵥ x + obsV y d)
      (obsL y cholR * (obsL y cholR)ᵀ) (obsY y))) :=
    ENNReal.measurable_ofReal.comp (Real.measurable_exp.comp (measurable_gaussLogDensity
      (obsH y H) (obsV y d) (obsL y cholR * (obsL y cholR)ᵀ) (obsY y)))
  rw [lintegral_withDensity_eq_lintegral_mul _ hm hf, lintegral_smul_measure, smul_eq_mul, add_zero]
  exact gauss_bayes_pointwise m cholP (obsH y H) (obsV y d) (isGram_of _) hR _ h2 (obsY y) hf

/-- **C22** (the exception). With a singular innovation covariance mean and evidence are not finite. -/
theorem update_singular (qr : QR) (m : Fin nx → ℝ) (cholP : Matrix (Fin nx) (Fin nx) ℝ)
    (H : Matrix (Fin ny) (Fin nx) ℝ) (d : Fin ny → ℝ) (cholR : Matrix (Fin ny) (Fin ny) ℝ)
    (y : Fin ny → Option ℝ) (l₀ : Option ℝ)
    (hS : (obsH y H * (cholP * cholPᵀ) * (obsH y H)ᵀ + obsL y cholR * (obsL y cholR)ᵀ).det = 0) :
    (update qr m cholP H d cholR y l₀).mean = none ∧ (update qr m cholP H d cholR y l₀).ell = none :=
  update_none qr m cholP H d cholR y l₀ hS

/-- Non-vacuity for C22: full-rank noise meets the hypotheses, whatever is missing and however degenerate
the prior. -/
example (cholP : Matrix (Fin nx) (Fin nx) ℝ) (H : Matrix (Fin 2) (Fin nx) ℝ) (y : Fin 2 → Option ℝ) :
    (H * (cholP * cholPᵀ) * Hᵀ + !![2, 0; 1, 3] * (!![2, 0; 1, 3] : Matrix (Fin 2) (Fin 2) ℝ)ᵀ).det ≠ 0 ∧
    (obsL y !![2, 0; 1, 3] * (obsL y !![2, 0; 1, 3])ᵀ).det ≠ 0 := by
  have h : ((!![2, 0; 1, 3] : Matrix (Fin 2) (Fin 2) ℝ) * (!![2, 0; 1, 3])ᵀ).det ≠ 0 := by
    rw [Matrix.det_mul, Matrix.det_transpose, Matrix.det_fin_two]; norm_num
  refine ⟨?_, obsR_det y _ h⟩
  rw [add_comm]
  exact (isGram_of _).det_add_ne_zero h ((isGram_of cholP).conj H)

/-! ## C23 -/

/-- **C23.** `update` with missing components returns what `update` returns when those rows are deleted
from `y`, `H`, `d` and the noise covariance: the same mean and log-likelihood (finite or not), and the
same covariance when they are finite. `e` lists the observed components in any order. -/
theorem update_missing_eq_deleted (qr : QR) (m : Fin nx → ℝ) (cholP : Matrix (Fin nx) (Fin nx) ℝ)
    (H : Matrix (Fin ny) (Fin nx) ℝ) (d : Fin ny → ℝ) (cholR : Matrix (Fin ny) (Fin ny) ℝ)
    (y : Fin ny → Option ℝ) (l₀ : Option ℝ) {ny' : ℕ} (e : Fin ny' ≃ {i // (y i).isNone = false})
    (cholR' : Matrix (Fin ny') (Fin ny') ℝ)
    (hR' : ∀ i j, (cholR' * cholR'ᵀ) i j = (cholR * cholRᵀ) (e i).1 (e j).1) :
    let a := update qr m cholP H d cholR y l₀
    let b := update qr m cholP (Matrix.of fun i j => H (e i).1 j) (fun i => d (e i).1) cholR'
      (fun i => y (e i).1) l₀
    a.mean = b.mean ∧ a.ell = b.ell ∧ (b.mean ≠ none → a.chol * a.cholᵀ = b.chol * b.cholᵀ) := by
  intro a b
  have hyv : (fun i => y (e i).1) = fun i => some ((obsY y ∘ e) i) := by
    funext i
    have := (e i).2
    simp only [obsY, Function.comp_apply]
    cases h : y (e i).1 with
    | none => rw [h] at this; cases this
    | some v => rfl
  have hRe : cholR' * cholR'ᵀ = (obsL y cholR * (obsL y cholR)ᵀ).submatrix e e := by
    ext i j; exact hR' i j
  have hHe : (Matrix.of fun i j => H (e i).1 j : Matrix (Fin ny') (Fin nx) ℝ) =
      (obsH y H).submatrix e id := rfl
  have hSe : innovCov (cholP * cholPᵀ) ((obsH y H).submatrix e id) (cholR' * cholR'ᵀ) =
      (innovCov (cholP * cholPᵀ) (obsH y H) (obsL y cholR * (obsL y cholR)ᵀ)).submatrix e e := by
    rw [hRe]; rfl
  by_cases hd : (innovCov (cholP * cholPᵀ) (obsH y H) (obsL y cholR * (obsL y cholR)ᵀ)).det = 0
  · obtain ⟨h1, h2⟩ := update_none qr m cholP H d cholR y l₀ hd
    have hb : b.mean = none ∧ b.ell = none := by
      have key : (innovCov (cholP * cholPᵀ) (obsH (fun i => y (e i).1) (Matrix.of fun i j => H (e i).1 j))
          (obsL (fun i => y (e i).1) cholR' * (obsL (fun i => y (e i).1) cholR')ᵀ)).det = 0 := by
        rw [hyv]
        have h3 : (innovCov (cholP * cholPᵀ) ((obsH y H).submatrix e id) (cholR' * cholR'ᵀ)).det = 0 := by
          rw [hSe, Matrix.det_submatrix_equiv_self]; exact hd
        rw [← h3, ← Matrix.det_submatrix_equiv_self (obsAll (obsY y ∘ e))]
        rfl
      exact update_none qr m cholP _ _ cholR' _ l₀ key
    exact ⟨h1.trans hb.1.symm, h2.trans hb.2.symm, fun h => absurd hb.1 h⟩
  · have hd' : (innovCov (cholP * cholPᵀ) ((obsH y H).submatrix e id) (cholR' * cholR'ᵀ)).det ≠ 0 := by
      rw [hSe, Matrix.det_submatrix_equiv_self]; exact hd
    have hmean : ∀ l, (update qr m cholP H d cholR y l).mean = a.mean := fun _ => rfl
    have hchol : ∀ l, (update qr m cholP H d cholR y l).chol = a.chol := fun _ => rfl
    obtain ⟨h1, h2, -, h4⟩ := update_eq qr m cholP H d cholR y (l₀.getD 0) hd
    obtain ⟨g1, g2, -, g4⟩ := update_full qr m cholP ((obsH y H).submatrix e id) (obsV y d ∘ e) cholR'
      (obsY y ∘ e) (l₀.getD 0) hd'
    rw [hmean] at h1
    rw [hchol] at h2
    have hbe : b = update qr m cholP ((obsH y H).submatrix e id) (obsV y d ∘ e) cholR'
      (fun i => some ((obsY y ∘ e) i)) l₀ := by rw [← hyv]; rfl
    have hbm : b.mean = a.mean := by
      rw [h1, hbe]
      refine Eq.trans g1 ?_
      rw [hRe, condMean_reindex]
    have hbc : b.chol * b.cholᵀ = a.chol * a.cholᵀ := by
      rw [h2, hbe]
      refine Eq.trans g2 ?_
      rw [hRe, condCov_reindex]
    refine ⟨hbm.symm, ?_, fun _ => hbc.symm⟩
    have hlik : gaussLogDensity ((obsH y H).submatrix e id *ᵥ m + obsV y d ∘ e)
        (innovCov (cholP * cholPᵀ) ((obsH y H).submatrix e id) (cholR' * cholR'ᵀ)) (obsY y ∘ e) =
        gaussLogDensity (obsH y H *ᵥ m + obsV y d)
          (innovCov (cholP * cholPᵀ) (obsH y H) (obsL y cholR * (obsL y cholR)ᵀ)) (obsY y) := by
      rw [hSe, ← gaussLogDensity_reindex e]; rfl
    cases l₀ with
    | none =>
      have n1 : a.ell = none := by
        simp only [a, update]; cases logpdfMat _ _ _ <;> rfl
      have n2 : b.ell = none := by
        simp only [b, update]; cases logpdfMat _ _ _ <;> rfl
      rw [n1, n2]
    | some l =>
      rw [hbe]
      refine Eq.trans h4 (Eq.trans ?_ g4.symm)
      rw [hlik]

/-- **C23** (all missing). With every component missing, mean and covariance are unchanged and the
log-likelihood increment is zero. -/
theorem update_all_missing (qr : QR) (m : Fin nx → ℝ) (cholP : Matrix (Fin nx) (Fin nx) ℝ)
    (H : Matrix (Fin ny) (Fin nx) ℝ) (d : Fin ny → ℝ) (cholR : Matrix (Fin ny) (Fin ny) ℝ) (l₀ : ℝ) :
    let r := update qr m cholP H d cholR (fun _ => none) (some l₀)
    r.mean = some m ∧ r.chol * r.cholᵀ = cholP * cholPᵀ ∧ r.ell = some l₀ := by
  intro r
  have he : IsEmpty (Obs (fun _ : Fin ny => (none : Option ℝ))) := ⟨fun i => by simpa using i.2⟩
  obtain ⟨h1, h2, -, h4⟩ := update_eq qr m cholP H d cholR (fun _ => none) l₀ (by simp)
  refine ⟨h1.trans ?_, h2.trans ?_, h4.trans ?_⟩
  · rw [condMean]
    have : (obsH (fun _ => none) H)ᵀ *ᵥ ((innovCov (cholP * cholPᵀ) (obsH (fun _ => none) H)
        (obsL (fun _ => none) cholR * (obsL (fun _ => none) cholR)ᵀ))⁻¹ *ᵥ
        (obsY (fun _ => none) - (obsH (fun _ => none) H *ᵥ m + obsV (fun _ => none) d))) = 0 := by
      funext i; simp [Matrix.mulVec, dotProduct]
    rw [this, Matrix.mulVec_zero, add_zero]
  · rw [condCov]
    have : (obsH (fun _ => none) H)ᵀ * (innovCov (cholP * cholPᵀ) (obsH (fun _ => none) H)
        (obsL (fun _ => none) cholR * (obsL (fun _ => none) cholR)ᵀ))⁻¹ * obsH (fun _ => none) H = 0 := by
      ext i j; simp [Matrix.mul_apply]
    rw [this, Matrix.mul_zero, Matrix.zero_mul, sub_zero]
  · simp [gaussLogDensity, dotProduct]

/-! ## C24 -/

/-- **C24.** Combining a filtering state (`A = 0`, `eta = 0`, `Z = 0`, as in every state of a filter run)
with the prepared element of the next input has the mean and covariance of predict followed by update,
whenever `H Q Hᵀ + R` of the observed components is nonsingular; its log normalising constant is that of
predict followed by update if the covariance factor of the state is triangular with a nonzero diagonal. -/
theorem online_step_eq_predict_update (qr : QR) (cb : Callbacks nx ny Inp) (u : Inp)
    (s : FilterState nx Inp) (e : FilterElem nx) (he : s.elem = some e) (hA : e.A = 0) (heta : e.eta = 0)
    (hZ : e.Z = 0)
    (hS : (innovCov ((stepOf cb u).cholQ * ((stepOf cb u).cholQ)ᵀ)
      (obsH (stepOf cb u).y (stepOf cb u).H) (stepOf cb u).R).det ≠ 0) :
    let st := stepOf cb u
    let p := predict qr e.b e.U st.F st.c st.cholQ
    let r := update qr p.1 p.2 st.H st.d st.cholR st.y e.ell
    let s' := filterCombine qr s (filterPrepare qr cb u)
    s'.mean = r.mean ∧ r.mean ≠ none ∧
      s'.cholCov.map (fun L => L * Lᵀ) = some (r.chol * r.cholᵀ) ∧
      (IsLower e.U → (∀ i, e.U i i ≠ 0) → s'.logNormalizingConstant = r.ell) := by
  intro st p r s'
  have hr : Repr e (KF.elem ⟨e.b, e.U * e.Uᵀ, e.ell.getD 0⟩) :=
    ⟨hA, rfl, rfl, heta, by simp [KF.elem, hZ]⟩
  obtain ⟨e', he', hr', -, hval, hfin⟩ := combine_step qr cb u s e he _ hr hS
  have hpg : p.2 * p.2ᵀ = st.F * (e.U * e.Uᵀ) * st.Fᵀ + st.cholQ * st.cholQᵀ :=
    predict_gram qr e.b e.U st.F st.c st.cholQ
  have hd : (innovCov (p.2 * p.2ᵀ) (obsH st.y st.H) (obsL st.y st.cholR * (obsL st.y st.cholR)ᵀ)).det ≠ 0 := by
    rw [hpg]; exact innov_det (isGram_of e.U) st hS
  obtain ⟨h1, h2, -, h4⟩ := update_eq qr p.1 p.2 st.H st.d st.cholR st.y (e.ell.getD 0) hd
  have hrm : r.mean = some (kfStep ⟨e.b, e.U * e.Uᵀ, e.ell.getD 0⟩ st).m := by
    refine Eq.trans h1 ?_
    rw [hpg]; rfl
  have hrc : r.chol * r.cholᵀ = (kfStep ⟨e.b, e.U * e.Uᵀ, e.ell.getD 0⟩ st).P := by
    refine Eq.trans h2 ?_
    rw [hpg]; rfl
  refine ⟨?_, ?_, ?_, ?_⟩
  · rw [hrm, FilterState.mean, he', Option.map_some, hr'.b]; rfl
  · rw [hrm]; simp
  · rw [hrc, FilterState.cholCov, he', Option.map_some, Option.map_some, hr'.C]; rfl
  · intro hl hdU
    have hln : s'.logNormalizingConstant = e'.ell := by
      rw [FilterState.logNormalizingConstant, he']; rfl
    rw [hln]
    cases hee : e.ell with
    | none =>
      have n1 : e'.ell = none := by
        by_contra hne
        obtain ⟨l, hl'⟩ := Option.ne_none_iff_exists'.mp hne
        obtain ⟨q, hq, hqr, hql, -⟩ := filterParams_eq qr st.F st.c st.cholQ st.H st.d st.cholR st.y hS
        obtain ⟨e'', he'', -, -, -, -, hn, -⟩ := filteringOperator_eq qr hr hqr
        have : e' = e'' := by
          have h5 : some e' = some e'' := by
            rw [← he', ← he'']
            simp only [filterCombine, he, filterPrepare_elem]
            have : filterParams qr (stepOf cb u).F (stepOf cb u).c (stepOf cb u).cholQ
              (stepOf cb u).H (stepOf cb u).d (stepOf cb u).cholR (stepOf cb u).y = some q := hq
            rw [this]; rfl
          exact Option.some.inj h5
        exact hne (this ▸ hn hee)
      have n2 : r.ell = none := by
        simp only [r, update, hee]; cases logpdfMat _ _ _ <;> rfl
      rw [n1, n2]
    | some l₁ =>
      have hPd : (e.U * e.Uᵀ).det ≠ 0 := hl.diag_ne_zero_iff_gram.mp hdU
      have hne := hfin hl hPd (by rw [hee]; simp)
      obtain ⟨l, hl'⟩ := Option.ne_none_iff_exists'.mp hne
      have hle := hval hl (fun l h => by rw [hee] at h ⊢; simpa using h.symm) l hl'
      have hr4 : r.ell = some (kfStep ⟨e.b, e.U * e.Uᵀ, e.ell.getD 0⟩ st).l := by
        have : r = update qr p.1 p.2 st.H st.d st.cholR st.y (some (e.ell.getD 0)) := by
          simp only [r, hee, Option.getD_some]
        rw [this]
        refine Eq.trans h4 ?_
        rw [hpg, add_comm]; rfl
      rw [hr4, hl', hle]

/-- **C24** (reachability). Every state of a filter run has the shape required above. -/
theorem filter_states_shape (qr : QR) (rng : Prng K) (cb : Callbacks nx ny Inp) (u₀ : Inp) (us : List Inp)
    (key : Option K) (hS : ∀ u ∈ us, ScanOk (stepOf cb u)) :
    ∃ states, (filter rng (buildFilter qr cb) (u₀ :: us) false key).result = .ok states ∧
      states.length = us.length + 1 ∧
      ∀ s ∈ states, ∃ e, s.elem = some e ∧ e.A = 0 ∧ e.eta = 0 ∧ e.Z = 0 := by
  obtain ⟨states, hres, hrun⟩ := filter_sequential_is_online_run rng (buildFilter qr cb) (u₀ :: us) key
    (by simp)
  refine ⟨states, hres, by simpa using hrun.length_eq, ?_⟩
  intro s hs
  obtain ⟨t, ht⟩ := List.mem_iff_getElem?.mp hs
  have htl : t ≤ us.length := by
    have h1 : t < states.length := (List.getElem?_eq_some_iff.mp ht).1
    have h2 := hrun.length_eq
    simp only [List.length_cons] at h2
    omega
  obtain ⟨s', e, hs', he, hr, -, -, -⟩ := run_invariant qr cb u₀ us _ states hrun t htl
    fun u hu => hS u (List.mem_of_mem_take hu)
  rw [ht, Option.some.injEq] at hs'
  subst hs'
  refine ⟨e, he, hr.A, hr.eta, ?_⟩
  have hz : e.Z * e.Zᵀ = 0 := hr.J
  ext i j
  have h := row_eq_zero_of_gram (L := e.Z) (i := i) (by rw [hz]; rfl)
  exact h j

/-! ## C25 -/

/-- The part of a scan element that does not depend on the choice of square roots. -/
def covForm (e : FilterElem nx) : CElem (Fin nx) :=
  ⟨e.A, e.b, e.U * e.Uᵀ, e.eta, e.Z * e.Zᵀ, e.ell.getD 0⟩

theorem repr_covForm (e : FilterElem nx) : Repr e (covForm e) := ⟨rfl, rfl, rfl, rfl, rfl⟩

/-- **C25.** `filtering_operator` never fails on finite elements and is associative up to the choice of
square root: `A`, `b`, `U Uᵀ`, `eta` and `Z Zᵀ` agree for all triples of elements, and the log-likelihood
agrees (and is finite) when those of the three elements are finite and the factors `U` of the first two
are lower triangular with nonzero diagonal. -/
theorem filtering_operator_assoc (qr : QR) (e₁ e₂ e₃ : FilterElem nx) :
    ∃ e₁₂ e₂₃ l r, filteringOperator qr e₁ e₂ = some e₁₂ ∧ filteringOperator qr e₂ e₃ = some e₂₃ ∧
      filteringOperator qr e₁₂ e₃ = some l ∧ filteringOperator qr e₁ e₂₃ = some r ∧
      l.A = r.A ∧ l.b = r.b ∧ l.U * l.Uᵀ = r.U * r.Uᵀ ∧ l.eta = r.eta ∧ l.Z * l.Zᵀ = r.Z * r.Zᵀ ∧
      (IsLower e₁.U → (∀ i, e₁.U i i ≠ 0) → IsLower e₂.U → (∀ i, e₂.U i i ≠ 0) →
        e₁.ell ≠ none → e₂.ell ≠ none → e₃.ell ≠ none → l.ell = r.ell ∧ l.ell ≠ none) := by
  have h₁ := repr_covForm e₁
  have h₂ := repr_covForm e₂
  have h₃ := repr_covForm e₃
  obtain ⟨e₁₂, r12, p12, low12, l12, -⟩ := filteringOperator_eq qr h₁ h₂
  obtain ⟨e₂₃, r23, p23, low23, l23, -⟩ := filteringOperator_eq qr h₂ h₃
  obtain ⟨l, rl, pl, -, ll, -⟩ := filteringOperator_eq qr p12 h₃
  obtain ⟨r, rr, pr, -, lr, -⟩ := filteringOperator_eq qr h₁ p23
  have hass := CElem.op_assoc _ _ _ h₁.valid h₂.valid h₃.valid
  rw [hass] at pl
  refine ⟨e₁₂, e₂₃, l, r, r12, r23, rl, rr, pl.A.trans pr.A.symm, pl.b.trans pr.b.symm,
    pl.C.trans pr.C.symm, pl.eta.trans pr.eta.symm, pl.J.trans pr.J.symm, ?_⟩
  intro hl1 hd1 hl2 hd2 hn1 hn2 hn3
  obtain ⟨a, ha⟩ := Option.ne_none_iff_exists'.mp hn1
  obtain ⟨b, hb⟩ := Option.ne_none_iff_exists'.mp hn2
  obtain ⟨c, hc⟩ := Option.ne_none_iff_exists'.mp hn3
  have e12 := l12 a b ha hb hl1 hd1
  have e23 := l23 b c hb hc hl2 hd2
  have hd12 : ∀ i, e₁₂.U i i ≠ 0 := by
    rw [low12.diag_ne_zero_iff_gram, p12.C]
    have h2d : (e₂.U * e₂.Uᵀ).det ≠ 0 := hl2.diag_ne_zero_iff_gram.mp hd2
    exact op_C_det h₁.valid h₂.valid h2d
  have el := ll _ c e12 hc low12 hd12
  have er := lr a _ ha e23 hl1 hd1
  refine ⟨?_, by rw [el]; simp⟩
  rw [el, er]
  have s1 : ({ (covForm e₁) with ell := a } : CElem (Fin nx)) = covForm e₁ := by
    simp [covForm, ha]
  have s2 : ({ (covForm e₂) with ell := b } : CElem (Fin nx)) = covForm e₂ := by
    simp [covForm, hb]
  have s3 : ({ (covForm e₃) with ell := c } : CElem (Fin nx)) = covForm e₃ := by
    simp [covForm, hc]
  rw [s1, s2, s3]
  exact congrArg some (congrArg CElem.ell hass)

/-- Forgetting the log-likelihood. -/
def CElem0 (c : CElem (Fin nx)) : CElem (Fin nx) := { c with ell := 0 }

/-- What does not depend on the choice of square roots and on log-likelihoods. -/
def momentView (s : FilterState nx Inp) : Option (CElem (Fin nx)) :=
  s.elem.map fun e => CElem0 (covForm e)

/-- Combination of views. -/
def momentOp (a b : Option (CElem (Fin nx))) : Option (CElem (Fin nx)) :=
  match a, b with
  | some a, some b => some (CElem0 (a.op b))
  | _, _ => none

theorem CElem0_op (a b : CElem (Fin nx)) : CElem0 ((CElem0 a).op (CElem0 b)) = CElem0 (a.op b) := rfl

theorem momentView_combine (qr : QR) (a b : FilterState nx Inp) :
    momentView (filterCombine qr a b) = momentOp (momentView a) (momentView b) := by
  unfold momentView filterCombine
  cases ha : a.elem with
  | none => rfl
  | some e₁ =>
    cases hb : b.elem with
    | none => rfl
    | some e₂ =>
      obtain ⟨e, he, hr, -⟩ := filteringOperator_eq qr (repr_covForm e₁) (repr_covForm e₂)
      simp only [Option.bind_eq_bind, Option.bind_some, he, Option.map_some, momentOp, CElem0_op,
        Option.some.injEq]
      simp only [CElem0, CElem.mk.injEq, and_true]
      exact ⟨hr.A, hr.b, hr.C, hr.eta, hr.J⟩

theorem valid_covForm (e : FilterElem nx) : (covForm e).Valid := (repr_covForm e).valid

theorem valid_momentView {s : FilterState nx Inp} {c : CElem (Fin nx)} (h : momentView s = some c) :
    c.Valid := by
  unfold momentView at h
  cases he : s.elem with
  | none => rw [he] at h; cases h
  | some e =>
    rw [he, Option.map_some, Option.some.injEq] at h
    subst h
    exact valid_covForm e

/-- **C25** (parallel run, moments). The parallel and the sequential Kalman filter return the same means
and covariances at every time, for every model, including NaN results. -/
theorem kalman_parallel_moments (qr : QR) (rng : Prng K) (cb : Callbacks nx ny Inp) (inputs : List Inp)
    (key : Option K) :
    (filter rng (buildFilter qr cb) inputs true key).result.map (List.map fun s =>
        (s.mean, s.cholCov.map fun L => L * Lᵀ)) =
      (filter rng (buildFilter qr cb) inputs false key).result.map (List.map fun s =>
        (s.mean, s.cholCov.map fun L => L * Lᵀ)) := by
  have h := filter_parallel_agrees_on_view rng (buildFilter (K := K) qr cb) inputs key (fun _ => True)
    momentView momentOp (fun _ _ _ => trivial) (fun _ _ _ _ => trivial) (fun _ _ _ _ => trivial)
    (fun a b _ _ => momentView_combine qr a b) (by
      intro a b c _ _ _
      cases ha : momentView a with
      | none => rfl
      | some c₁ =>
        cases hb : momentView b with
        | none => rfl
        | some c₂ =>
          cases hc : momentView c with
          | none => rfl
          | some c₃ =>
            simp only [momentOp, Option.some.injEq]
            have := CElem.op_assoc c₁ c₂ c₃ (valid_momentView ha) (valid_momentView hb)
              (valid_momentView hc)
            have e1 : CElem0 ((CElem0 (c₁.op c₂)).op c₃) = CElem0 ((c₁.op c₂).op c₃) := rfl
            have e2 : CElem0 (c₁.op (CElem0 (c₂.op c₃))) = CElem0 (c₁.op (c₂.op c₃)) := rfl
            rw [e1, e2, this])
  have key2 : ∀ r : Except Err (List (FilterState nx Inp)),
      r.map (List.map fun s => (s.mean, s.cholCov.map fun L => L * Lᵀ)) =
      (r.map (List.map momentView)).map (List.map fun v => (v.map (·.b), v.map (·.C))) := by
    intro r
    cases r with
    | error e => rfl
    | ok l =>
      simp only [Except.map, List.map_map, Except.ok.injEq]
      refine List.map_congr_left fun s _ => ?_
      simp only [Function.comp_apply, momentView, FilterState.mean, FilterState.cholCov, Option.map_map]
      rfl
  rw [key2, key2, h]

/-- States whose log-likelihood survives every bracketing: finite, with a triangular factor of nonzero
diagonal. -/
def Good (s : FilterState nx Inp) : Prop :=
  ∃ e l, s.elem = some e ∧ e.ell = some l ∧ IsLower e.U ∧ ∀ i, e.U i i ≠ 0

/-- What does not depend on the choice of square roots. -/
def fullView (s : FilterState nx Inp) : Option (CElem (Fin nx)) × Option ℝ :=
  (s.elem.map covForm, s.logNormalizingConstant)

/-- Combination of views. -/
def fullOp (a b : Option (CElem (Fin nx)) × Option ℝ) : Option (CElem (Fin nx)) × Option ℝ :=
  match a.1, b.1 with
  | some a, some b => (some (a.op b), some (a.op b).ell)
  | _, _ => (none, none)

theorem good_combine (qr : QR) {a b : FilterState nx Inp} (ha : Good a) (hb : Good b) :
    Good (filterCombine qr a b) ∧ fullView (filterCombine qr a b) = fullOp (fullView a) (fullView b) := by
  obtain ⟨e₁, l₁, he₁, hl₁, hlow₁, hd₁⟩ := ha
  obtain ⟨e₂, l₂, he₂, hl₂, hlow₂, hd₂⟩ := hb
  obtain ⟨e, he, hr, hlow, hell, -⟩ := filteringOperator_eq qr (repr_covForm e₁) (repr_covForm e₂)
  have hel := hell l₁ l₂ hl₁ hl₂ hlow₁ hd₁
  have s1 : ({ (covForm e₁) with ell := l₁ } : CElem (Fin nx)) = covForm e₁ := by simp [covForm, hl₁]
  have s2 : ({ (covForm e₂) with ell := l₂ } : CElem (Fin nx)) = covForm e₂ := by simp [covForm, hl₂]
  rw [s1, s2] at hel
  have hc : (filterCombine qr a b).elem = some e := by
    simp only [filterCombine, he₁, he₂]; exact he
  refine ⟨⟨e, _, hc, hel, hlow, ?_⟩, ?_⟩
  · rw [hlow.diag_ne_zero_iff_gram, hr.C]
    exact op_C_det (valid_covForm e₁) (valid_covForm e₂) (hlow₂.diag_ne_zero_iff_gram.mp hd₂)
  · simp only [fullView, hc, he₁, he₂, Option.map_some, fullOp, FilterState.logNormalizingConstant,
      Option.bind_some, Prod.mk.injEq, Option.some.injEq]
    refine ⟨?_, hel⟩
    have h1 : covForm e = ⟨e.A, e.b, e.U * e.Uᵀ, e.eta, e.Z * e.Zᵀ, e.ell.getD 0⟩ := rfl
    rw [h1, hr.A, hr.b, hr.C, hr.eta, hr.J, hel]
    rfl

theorem good_prepare (qr : QR) (cb : Callbacks nx ny Inp) (u : Inp)
    (hQ : ((stepOf cb u).cholQ * ((stepOf cb u).cholQ)ᵀ).det ≠ 0) (hR : (stepOf cb u).R.det ≠ 0) :
    Good (filterPrepare qr cb u) := by
  obtain ⟨e, he, hr, hl, hlow⟩ := filterParams_eq qr (stepOf cb u).F (stepOf cb u).c (stepOf cb u).cholQ
    (stepOf cb u).H (stepOf cb u).d (stepOf cb u).cholR (stepOf cb u).y (ScanOk.of_R _ hR)
  refine ⟨e, _, he, hl, hlow, ?_⟩
  rw [hlow.diag_ne_zero_iff_gram, hr.C]
  exact condCov_det (isGram_of _) (isGram_of _) hQ hR

/-- **C25** (parallel run, log-likelihoods). When the initial factor is lower triangular and nonsingular
and the process and observed noise covariances are nonsingular, the parallel and the sequential filter
also return the same log normalising constants, all finite. -/
theorem kalman_parallel_log_likelihood (qr : QR) (rng : Prng K) (cb : Callbacks nx ny Inp) (u₀ : Inp)
    (us : List Inp) (key : Option K)
    (hP0 : IsLower (cb.getInit u₀).2) (hP0d : ∀ i, (cb.getInit u₀).2 i i ≠ 0)
    (hQ : ∀ u ∈ us, ((stepOf cb u).cholQ * ((stepOf cb u).cholQ)ᵀ).det ≠ 0)
    (hR : ∀ u ∈ us, (stepOf cb u).R.det ≠ 0) :
    (filter rng (buildFilter qr cb) (u₀ :: us) true key).result.map (List.map fun s =>
        (s.mean, s.cholCov.map (fun L => L * Lᵀ), s.logNormalizingConstant)) =
      (filter rng (buildFilter qr cb) (u₀ :: us) false key).result.map (List.map fun s =>
        (s.mean, s.cholCov.map (fun L => L * Lᵀ), s.logNormalizingConstant)) ∧
    ∃ states, (filter rng (buildFilter qr cb) (u₀ :: us) true key).result = .ok states ∧
      ∀ s ∈ states, s.logNormalizingConstant ≠ none := by
  have hgi : ∀ u, (u₀ :: us)[0]? = some u → ∀ k, Good ((buildFilter (K := K) qr cb).initPrepare u k) := by
    intro u hu k
    have hu' : u₀ = u := by simpa using hu
    subst hu'
    exact ⟨_, _, rfl, rfl, hP0, hP0d⟩
  have hgp : ∀ (t : ℕ) u, (u₀ :: us)[t + 1]? = some u → ∀ k,
      Good ((buildFilter (K := K) qr cb).filterPrepare u k) := by
    intro t u hu k
    have hm : u ∈ us := List.mem_of_getElem? (by simpa using hu)
    exact good_prepare qr cb u (hQ u hm) (hR u hm)
  constructor
  · have h := filter_parallel_agrees_on_view rng (buildFilter (K := K) qr cb) (u₀ :: us) key Good fullView
      fullOp hgi hgp (fun a b ha hb => (good_combine qr ha hb).1)
      (fun a b ha hb => (good_combine qr ha hb).2) (by
        rintro a b c ⟨e₁, l₁, h₁, -⟩ ⟨e₂, l₂, h₂, -⟩ ⟨e₃, l₃, h₃, -⟩
        simp only [fullView, h₁, h₂, h₃, Option.map_some, fullOp]
        rw [CElem.op_assoc _ _ _ (valid_covForm e₁) (valid_covForm e₂) (valid_covForm e₃)])
    have key2 : ∀ r : Except Err (List (FilterState nx Inp)),
        r.map (List.map fun s => (s.mean, s.cholCov.map (fun L => L * Lᵀ), s.logNormalizingConstant)) =
        (r.map (List.map fullView)).map (List.map fun v => (v.1.map (·.b), v.1.map (·.C), v.2)) := by
      intro r
      cases r with
      | error e => rfl
      | ok l =>
        simp only [Except.map, List.map_map, Except.ok.injEq]
        refine List.map_congr_left fun s _ => ?_
        simp only [Function.comp_apply, fullView, FilterState.mean, FilterState.cholCov, Option.map_map]
        rfl
    rw [key2, key2, h]
  · rw [filter_parallel_eq]
    refine ⟨_, rfl, fun s hs => ?_⟩
    have := (associativeScan_map _ fullOp fullView Good (fun a b ha hb => (good_combine qr ha hb).1)
      (fun a b ha hb => (good_combine qr ha hb).2) _ (by
        intro x hx
        rcases List.mem_cons.mp hx with rfl | hx
        · exact hgi u₀ rfl _
        · obtain ⟨t, ht⟩ := List.mem_iff_getElem?.mp hx
          rw [filterElems_get] at ht
          cases hu : us[t]? with
          | none => rw [hu] at ht; cases ht
          | some v =>
            rw [hu, Option.map_some, Option.some.injEq] at ht
            rw [← ht]
            exact hgp t v (by simpa using hu) _)).2 s hs
    obtain ⟨e, l, he, hl, -⟩ := this
    simp [FilterState.logNormalizingConstant, he, hl]

end

end Cuthbert.Kalman
