import Verif.Props.KalmanSmoother

/-!
# Independence of the choice of square roots (C32)

Everything a Kalman filter or smoother returns depends on the covariance factors it is given, and on the
QR routine, only through the covariances.
-/

namespace Cuthbert.Kalman
open Matrix Cuthbert Cuthbert.Spec

noncomputable section

set_option linter.unusedSectionVars false

variable {nx ny : ℕ} {Inp K : Type*}

/-! ## Single steps -/

/-- **C32** (`predict`). -/
theorem predict_root_independent (qr qr' : QR) (m : Fin nx → ℝ)
    (cholP cholP' F : Matrix (Fin nx) (Fin nx) ℝ) (c : Fin nx → ℝ)
    (cholQ cholQ' : Matrix (Fin nx) (Fin nx) ℝ) (hP : cholP * cholPᵀ = cholP' * cholP'ᵀ)
    (hQ : cholQ * cholQᵀ = cholQ' * cholQ'ᵀ) :
    (predict qr m cholP F c cholQ).1 = (predict qr' m cholP' F c cholQ').1 ∧
    (predict qr m cholP F c cholQ).2 * ((predict qr m cholP F c cholQ).2)ᵀ =
      (predict qr' m cholP' F c cholQ').2 * ((predict qr' m cholP' F c cholQ').2)ᵀ := by
  refine ⟨rfl, ?_⟩
  rw [predict_gram, predict_gram, hP, hQ]

/-- **C32** (`update`), including non-finite results and missing components. -/
theorem update_root_independent (qr qr' : QR) (m : Fin nx → ℝ) (cholP cholP' : Matrix (Fin nx) (Fin nx) ℝ)
    (H : Matrix (Fin ny) (Fin nx) ℝ) (d : Fin ny → ℝ) (cholR cholR' : Matrix (Fin ny) (Fin ny) ℝ)
    (y : Fin ny → Option ℝ) (l₀ : ℝ) (hP : cholP * cholPᵀ = cholP' * cholP'ᵀ)
    (hR : cholR * cholRᵀ = cholR' * cholR'ᵀ) :
    let u := update qr m cholP H d cholR y (some l₀)
    let u' := update qr' m cholP' H d cholR' y (some l₀)
    u.mean = u'.mean ∧ u.ell = u'.ell ∧ (u.mean ≠ none → u.chol * u.cholᵀ = u'.chol * u'.cholᵀ) := by
  intro u u'
  have hR' : obsL y cholR * (obsL y cholR)ᵀ = obsL y cholR' * (obsL y cholR')ᵀ := by
    rw [obsL_gram, obsL_gram, hR]
  by_cases hd : (innovCov (cholP * cholPᵀ) (obsH y H) (obsL y cholR * (obsL y cholR)ᵀ)).det = 0
  · obtain ⟨h1, h2⟩ := update_none qr m cholP H d cholR y (some l₀) hd
    rw [hP, hR'] at hd
    obtain ⟨h3, h4⟩ := update_none qr' m cholP' H d cholR' y (some l₀) hd
    exact ⟨h1.trans h3.symm, h2.trans h4.symm, fun h => absurd h1 h⟩
  · obtain ⟨h1, h2, -, h3⟩ := update_eq qr m cholP H d cholR y l₀ hd
    rw [hP, hR'] at hd h1 h2 h3
    obtain ⟨h4, h5, -, h6⟩ := update_eq qr' m cholP' H d cholR' y l₀ hd
    exact ⟨h1.trans h4.symm, h3.trans h6.symm, fun _ => h2.trans h5.symm⟩

/-- **C32** (the smoothing step), including non-finite results. -/
theorem smoother_update_root_independent (qr qr' : QR) (m : Fin nx → ℝ)
    (cholP cholP' : Matrix (Fin nx) (Fin nx) ℝ) (ms : Fin nx → ℝ)
    (cholPs cholPs' F : Matrix (Fin nx) (Fin nx) ℝ) (c : Fin nx → ℝ)
    (cholQ cholQ' : Matrix (Fin nx) (Fin nx) ℝ) (hP : cholP * cholPᵀ = cholP' * cholP'ᵀ)
    (hPs : cholPs * cholPsᵀ = cholPs' * cholPs'ᵀ) (hQ : cholQ * cholQᵀ = cholQ' * cholQ'ᵀ) :
    (smootherUpdate qr m cholP ms cholPs F c cholQ).map
        (fun r => (r.1.1, r.1.2 * r.1.2ᵀ, r.2)) =
      (smootherUpdate qr' m cholP' ms cholPs' F c cholQ').map
        (fun r => (r.1.1, r.1.2 * r.1.2ᵀ, r.2)) := by
  by_cases hd : (innovCov (cholP * cholPᵀ) F (cholQ * cholQᵀ)).det = 0
  · rw [smootherUpdate_none qr m cholP ms cholPs F c cholQ hd]
    rw [hP, hQ] at hd
    rw [smootherUpdate_none qr' m cholP' ms cholPs' F c cholQ' hd]
  · obtain ⟨mean, chol, gain, hu, hg, hm, hc, -⟩ := smootherUpdate_eq qr m cholP ms cholPs F c cholQ hd
    rw [hP, hQ] at hd
    obtain ⟨mean', chol', gain', hu', hg', hm', hc', -⟩ :=
      smootherUpdate_eq qr' m cholP' ms cholPs' F c cholQ' hd
    rw [hP, hQ] at hg hm
    rw [hP, hQ, hPs, hg, ← hg', ← hc'] at hc
    rw [hu, hu']
    simp only [Option.map_some]
    rw [hc, hm, ← hm', hg, ← hg']

theorem smootherParams_root_independent (qr qr' : QR) (m : Fin nx → ℝ)
    (cholP cholP' F : Matrix (Fin nx) (Fin nx) ℝ) (c : Fin nx → ℝ)
    (cholQ cholQ' : Matrix (Fin nx) (Fin nx) ℝ) (hP : cholP * cholPᵀ = cholP' * cholP'ᵀ)
    (hQ : cholQ * cholQᵀ = cholQ' * cholQ'ᵀ) :
    (smootherParams qr m cholP F c cholQ).map sForm = (smootherParams qr' m cholP' F c cholQ').map sForm := by
  by_cases hd : (innovCov (cholP * cholPᵀ) F (cholQ * cholQᵀ)).det = 0
  · rw [smootherParams_none qr m cholP F c cholQ hd]
    rw [hP, hQ] at hd
    rw [smootherParams_none qr' m cholP' F c cholQ' hd]
  · obtain ⟨e, he, hE, hm, hc, -⟩ := smootherParams_eq qr m cholP F c cholQ hd
    rw [hP, hQ] at hd
    obtain ⟨e', he', hE', hm', hc', -⟩ := smootherParams_eq qr' m cholP' F c cholQ' hd
    rw [hP, hQ] at hE hm hc
    have hg : e.g = e'.g := by
      have h1 := hm 0
      rw [← hm' 0] at h1
      simpa using h1
    rw [he, he']
    simp only [Option.map_some, sForm]
    rw [hc, ← hc', hg, hE, ← hE']

/-! ## Filter runs -/

/-- Two ways of writing the same linear-Gaussian model: the parameters agree except that covariances may
be given by different factors. -/
structure SameModel (cb cb' : Callbacks nx ny Inp) : Prop where
  init : ∀ u, (cb.getInit u).1 = (cb'.getInit u).1
  P0 : ∀ u, (cb.getInit u).2 * ((cb.getInit u).2)ᵀ = (cb'.getInit u).2 * ((cb'.getInit u).2)ᵀ
  F : ∀ u, (cb.getDynamics u).1 = (cb'.getDynamics u).1
  c : ∀ u, (cb.getDynamics u).2.1 = (cb'.getDynamics u).2.1
  Q : ∀ u, (cb.getDynamics u).2.2 * ((cb.getDynamics u).2.2)ᵀ =
    (cb'.getDynamics u).2.2 * ((cb'.getDynamics u).2.2)ᵀ
  H : ∀ u, (cb.getObservation u).1 = (cb'.getObservation u).1
  d : ∀ u, (cb.getObservation u).2.1 = (cb'.getObservation u).2.1
  R : ∀ u, (cb.getObservation u).2.2.1 * ((cb.getObservation u).2.2.1)ᵀ =
    (cb'.getObservation u).2.2.1 * ((cb'.getObservation u).2.2.1)ᵀ
  y : ∀ u, (cb.getObservation u).2.2.2 = (cb'.getObservation u).2.2.2

/-- Covariance form and log-likelihood of a state. -/
def rootView (s : FilterState nx Inp) : Option (CElem (Fin nx) × Option ℝ) :=
  s.elem.map fun e => (CElem0 (covForm e), e.ell)

open Classical in
def rootOp (a b : Option (CElem (Fin nx) × Option ℝ)) : Option (CElem (Fin nx) × Option ℝ) :=
  match a, b with
  | some (a, la), some (b, lb) => some (CElem0 (a.op b),
    if a.C.det = 0 then none else
      match la, lb with
      | some la, some lb => some (CElem.op { a with ell := la } { b with ell := lb }).ell
      | _, _ => none)
  | _, _ => none

def LowerState (s : FilterState nx Inp) : Prop := ∀ e, s.elem = some e → IsLower e.U

theorem rootView_combine (qr : QR) (a b : FilterState nx Inp) (ha : LowerState a) :
    rootView (filterCombine qr a b) = rootOp (rootView a) (rootView b) := by
  unfold rootView filterCombine
  cases hae : a.elem with
  | none => rfl
  | some e₁ =>
    cases hbe : b.elem with
    | none => rfl
    | some e₂ =>
      obtain ⟨e, he, hr, -, h1, h2, h3, h4⟩ :=
        filteringOperator_eq qr (repr_covForm e₁) (repr_covForm e₂)
      have hlow := ha e₁ hae
      simp only [Option.bind_eq_bind, Option.bind_some, he, Option.map_some, rootOp, CElem0_op,
        Option.some.injEq, Prod.mk.injEq]
      constructor
      · simp only [CElem0, CElem.mk.injEq, and_true]
        exact ⟨hr.A, hr.b, hr.C, hr.eta, hr.J⟩
      · by_cases hd : (CElem0 (covForm e₁)).C.det = 0
        · rw [if_pos hd]
          refine h2 ?_
          by_contra hne
          push Not at hne
          exact hlow.diag_ne_zero_iff_gram.mp hne hd
        · rw [if_neg hd]
          cases hl₁ : e₁.ell with
          | none => exact h3 hl₁
          | some l₁ =>
            cases hl₂ : e₂.ell with
            | none => exact h4 hl₂
            | some l₂ =>
              rw [h1 l₁ l₂ hl₁ hl₂ hlow (hlow.diag_ne_zero_iff_gram.mpr hd)]
              rfl

theorem lowerState_combine (qr : QR) (a b : FilterState nx Inp) : LowerState (filterCombine qr a b) := by
  intro e he
  simp only [filterCombine] at he
  cases hae : a.elem with
  | none => rw [hae] at he; cases he
  | some e₁ =>
    cases hbe : b.elem with
    | none => rw [hae, hbe] at he; cases he
    | some e₂ =>
      rw [hae, hbe] at he
      obtain ⟨e', he', -, hl, -⟩ := filteringOperator_eq qr (repr_covForm e₁) (repr_covForm e₂)
      have : some e' = some e := he'.symm.trans he
      rw [← Option.some.inj this]
      exact hl

theorem lowerState_prepare (qr : QR) (cb : Callbacks nx ny Inp) (u : Inp) :
    LowerState (filterPrepare qr cb u) := by
  intro e he
  have he' : filterParams qr (stepOf cb u).F (stepOf cb u).c (stepOf cb u).cholQ (stepOf cb u).H
      (stepOf cb u).d (stepOf cb u).cholR (stepOf cb u).y = some e := he
  by_cases hd : (innovCov ((stepOf cb u).cholQ * ((stepOf cb u).cholQ)ᵀ) (obsH (stepOf cb u).y (stepOf cb u).H)
      (obsL (stepOf cb u).y (stepOf cb u).cholR * (obsL (stepOf cb u).y (stepOf cb u).cholR)ᵀ)).det = 0
  · rw [filterParams_none qr _ _ _ _ _ _ _ hd] at he'; cases he'
  · obtain ⟨e', h1, -, -, hl⟩ := filterParams_eq qr (stepOf cb u).F (stepOf cb u).c _ _ (stepOf cb u).d _ _ hd
    rw [h1, Option.some.injEq] at he'
    rw [← he']; exact hl

theorem rootView_prepare (qr qr' : QR) (cb cb' : Callbacks nx ny Inp) (h : SameModel cb cb') (u : Inp) :
    rootView (filterPrepare qr cb u) = rootView (filterPrepare qr' cb' u) := by
  have key : ∀ (F : Matrix (Fin nx) (Fin nx) ℝ) (c : Fin nx → ℝ) (Q Q' : Matrix (Fin nx) (Fin nx) ℝ)
      (H : Matrix (Fin ny) (Fin nx) ℝ) (d : Fin ny → ℝ) (R R' : Matrix (Fin ny) (Fin ny) ℝ)
      (y : Fin ny → Option ℝ), Q * Qᵀ = Q' * Q'ᵀ → R * Rᵀ = R' * R'ᵀ →
      (filterParams qr F c Q H d R y).map (fun e => (CElem0 (covForm e), e.ell)) =
        (filterParams qr' F c Q' H d R' y).map (fun e => (CElem0 (covForm e), e.ell)) := by
    intro F c Q Q' H d R R' y hQ hR
    have hR' : obsL y R * (obsL y R)ᵀ = obsL y R' * (obsL y R')ᵀ := by
      rw [obsL_gram, obsL_gram, hR]
    by_cases hd : (innovCov (Q * Qᵀ) (obsH y H) (obsL y R * (obsL y R)ᵀ)).det = 0
    · rw [filterParams_none qr F c Q H d R y hd]
      rw [hQ, hR'] at hd
      rw [filterParams_none qr' F c Q' H d R' y hd]
    · obtain ⟨e, he, hr, hl, -⟩ := filterParams_eq qr F c Q H d R y hd
      rw [hQ, hR'] at hd hr hl
      obtain ⟨e', he', hr', hl', -⟩ := filterParams_eq qr' F c Q' H d R' y hd
      rw [he, he', Option.map_some, Option.map_some, hl, hl']
      simp only [CElem0, covForm]
      rw [hr.A, hr'.A, hr.b, hr'.b, hr.C, hr'.C, hr.eta, hr'.eta, hr.J, hr'.J]
  have h1 := key (cb.getDynamics u).1 (cb.getDynamics u).2.1 _ _ (cb.getObservation u).1
    (cb.getObservation u).2.1 _ _ (cb.getObservation u).2.2.2 (h.Q u) (h.R u)
  rw [h.F u, h.c u, h.H u, h.d u, h.y u] at h1
  have e1 : rootView (filterPrepare qr cb u) = (filterParams qr (cb.getDynamics u).1 (cb.getDynamics u).2.1
    (cb.getDynamics u).2.2 (cb.getObservation u).1 (cb.getObservation u).2.1 (cb.getObservation u).2.2.1
    (cb.getObservation u).2.2.2).map (fun e => (CElem0 (covForm e), e.ell)) := rfl
  rw [e1, h.F u, h.c u, h.H u, h.d u, h.y u, h1]
  rfl

/-- **C32** (filter runs). Two callbacks describing the same model, with lower triangular factors of the
initial covariance as the documentation asks, and any two QR routines give the same means, covariances and
log normalising constants at every time, in both modes, including non-finite ones. -/
theorem kalman_filter_root_independent (qr qr' : QR) (rng rng' : Prng K) (cb cb' : Callbacks nx ny Inp)
    (h : SameModel cb cb') (hlow : ∀ u, IsLower (cb.getInit u).2) (hlow' : ∀ u, IsLower (cb'.getInit u).2)
    (inputs : List Inp) (parallel : Bool) (key key' : Option K) :
    (filter rng (buildFilter qr cb) inputs parallel key).result.map (List.map fun s =>
        (s.mean, s.cholCov.map (fun L => L * Lᵀ), s.logNormalizingConstant)) =
      (filter rng' (buildFilter qr' cb') inputs parallel key').result.map (List.map fun s =>
        (s.mean, s.cholCov.map (fun L => L * Lᵀ), s.logNormalizingConstant)) := by
  have key2 : ∀ r : Except Err (List (FilterState nx Inp)),
      r.map (List.map fun s =>
        (s.mean, s.cholCov.map (fun L => L * Lᵀ), s.logNormalizingConstant)) =
      (r.map (List.map rootView)).map (List.map fun v =>
        (v.map (·.1.b), v.map (·.1.C), v.bind (·.2))) := by
    intro r
    cases r with
    | error e => rfl
    | ok l =>
      simp only [Except.map, List.map_map, Except.ok.injEq]
      refine List.map_congr_left fun s _ => ?_
      simp only [Function.comp_apply, rootView, FilterState.mean, FilterState.cholCov,
        FilterState.logNormalizingConstant, Option.map_map]
      cases s.elem <;> rfl
  rw [key2, key2]
  congr 1
  cases inputs with
  | nil => rfl
  | cons u₀ us =>
    have hlist : (us.map (filterPrepare qr cb)).map rootView =
        (us.map (filterPrepare qr' cb')).map rootView := by
      rw [List.map_map, List.map_map]
      exact List.map_congr_left fun u _ => rootView_prepare qr qr' cb cb' h u
    have hinit : rootView (initPrepare cb u₀) = rootView (initPrepare cb' u₀) := by
      simp only [rootView, initPrepare, Option.map_some, CElem0, covForm]
      rw [h.init u₀, h.P0 u₀]
    have hall : ∀ (qr : QR) (cb : Callbacks nx ny Inp), (∀ u, IsLower (cb.getInit u).2) →
        ∀ x ∈ initPrepare cb u₀ :: us.map (filterPrepare qr cb), LowerState x := by
      intro qr cb hl x hx
      rcases List.mem_cons.mp hx with rfl | hx
      · intro e he
        have : e = _ := (Option.some.inj he).symm
        subst this
        exact hl u₀
      · obtain ⟨u, -, rfl⟩ := List.mem_map.mp hx
        exact lowerState_prepare qr cb u
    cases parallel with
    | false =>
      rw [filter_sequential_eq, filter_sequential_eq, filterElems_eq, filterElems_eq]
      simp only [Except.map]
      have h1 := runningFold_map (filterCombine qr) rootOp rootView LowerState
        (fun a b _ _ => lowerState_combine qr a b) (fun a b ha _ => rootView_combine qr a b ha)
        (initPrepare cb u₀) (us.map (filterPrepare qr cb)) (hall qr cb hlow)
      have h2 := runningFold_map (filterCombine qr') rootOp rootView LowerState
        (fun a b _ _ => lowerState_combine qr' a b) (fun a b ha _ => rootView_combine qr' a b ha)
        (initPrepare cb' u₀) (us.map (filterPrepare qr' cb')) (hall qr' cb' hlow')
      exact congrArg _ (h1.trans (by rw [hinit, hlist, ← h2]; rfl))
    | true =>
      rw [filter_parallel_eq, filter_parallel_eq, filterElems_eq, filterElems_eq]
      simp only [Except.map]
      have h1 := (associativeScan_map (filterCombine qr) rootOp rootView LowerState
        (fun a b _ _ => lowerState_combine qr a b) (fun a b ha _ => rootView_combine qr a b ha)
        (initPrepare cb u₀ :: us.map (filterPrepare qr cb)) (hall qr cb hlow)).1
      have h2 := (associativeScan_map (filterCombine qr') rootOp rootView LowerState
        (fun a b _ _ => lowerState_combine qr' a b) (fun a b ha _ => rootView_combine qr' a b ha)
        (initPrepare cb' u₀ :: us.map (filterPrepare qr' cb')) (hall qr' cb' hlow')).1
      exact congrArg _ (h1.trans (by rw [List.map_cons, hinit, hlist, ← List.map_cons, ← h2]; rfl))

/-! ## Smoother runs -/

/-- A smoother state up to the choice of square roots. -/
def sRoot (s : SmootherState nx Inp) :
    Option (SElem nx) × Option (Option (Matrix (Fin nx) (Fin nx) ℝ)) ×
      Option (Option (Matrix (Fin nx) (Fin nx) ℝ)) :=
  (s.elem.map sForm, s.gain, s.cholCovGivenNext.map (Option.map fun D => D * Dᵀ))

def sRootOp (a b : Option (SElem nx) × Option (Option (Matrix (Fin nx) (Fin nx) ℝ)) ×
      Option (Option (Matrix (Fin nx) (Fin nx) ℝ))) :
    Option (SElem nx) × Option (Option (Matrix (Fin nx) (Fin nx) ℝ)) ×
      Option (Option (Matrix (Fin nx) (Fin nx) ℝ)) :=
  (match a.1, b.1 with
    | some x, some y => some (y.op x)
    | _, _ => none, a.2)

theorem sRoot_combine (qr : QR) (a b : SmootherState nx Inp) :
    sRoot (smootherCombine qr a b) = sRootOp (sRoot a) (sRoot b) := by
  have h := congrArg SView.elem (sView_combine qr a b)
  simp only [sView, SView.op] at h
  simp only [sRoot, sRootOp, Prod.mk.injEq]
  exact ⟨h, rfl, rfl⟩

theorem backFold_map {Q V : Type*} (op : Q → Q → Q) (op' : V → V → V) (q : Q → V)
    (hq : ∀ a b, q (op a b) = op' (q a) (q b)) (final : Q) : ∀ ps : List Q,
    (backFold op final ps).map q = backFold op' (q final) (ps.map q)
  | [] => rfl
  | p :: ps => by
    have ih := backFold_map op op' q hq final ps
    obtain ⟨r, hr, e⟩ := backFold_cons op final p ps
    obtain ⟨r', hr', e'⟩ := backFold_cons op' (q final) (q p) (ps.map q)
    rw [← ih, List.getElem?_map, hr, Option.map_some, Option.some.injEq] at hr'
    rw [e, List.map_cons, List.map_cons, e', ← hr', hq, ih]

theorem sRoot_prepare (qr qr' : QR)
    (dyn dyn' : Inp → Matrix (Fin nx) (Fin nx) ℝ × (Fin nx → ℝ) × Matrix (Fin nx) (Fin nx) ℝ)
    (hF : ∀ u, (dyn u).1 = (dyn' u).1) (hc : ∀ u, (dyn u).2.1 = (dyn' u).2.1)
    (hQ : ∀ u, (dyn u).2.2 * ((dyn u).2.2)ᵀ = (dyn' u).2.2 * ((dyn' u).2.2)ᵀ)
    (opts : SmootherOpts nx Inp) (x x' : FilterState nx Inp) (u : Inp) (h1 : x'.mean = x.mean)
    (h2 : x'.cholCov.map (fun L => L * Lᵀ) = x.cholCov.map (fun L => L * Lᵀ)) :
    sRoot (smootherPrepare qr dyn opts x u) = sRoot (smootherPrepare qr' dyn' opts x' u) := by
  have hs : (x.mean.bind fun m => x.cholCov.bind fun L =>
      smootherParams qr m L (dyn u).1 (dyn u).2.1 (dyn u).2.2).map sForm =
      (x'.mean.bind fun m => x'.cholCov.bind fun L =>
        smootherParams qr' m L (dyn' u).1 (dyn' u).2.1 (dyn' u).2.2).map sForm := by
    rw [h1]
    cases x.mean with
    | none => simp only [Option.bind_none, Option.map_none]
    | some m =>
      cases hL : x.cholCov with
      | none =>
        rw [hL] at h2
        cases hL' : x'.cholCov with
        | none => simp only [Option.bind_some, Option.bind_none, Option.map_none]
        | some L' => rw [hL'] at h2; cases h2
      | some L =>
        rw [hL] at h2
        cases hL' : x'.cholCov with
        | none => rw [hL'] at h2; cases h2
        | some L' =>
          rw [hL', Option.map_some, Option.map_some, Option.some.injEq] at h2
          simp only [Option.bind_some]
          rw [hF, hc]
          exact smootherParams_root_independent qr qr' m L L' _ _ _ _ h2.symm (hQ u)
  obtain ⟨p, hp⟩ : ∃ p, p = (x.mean.bind fun m => x.cholCov.bind fun L =>
      smootherParams qr m L (dyn u).1 (dyn u).2.1 (dyn u).2.2) := ⟨_, rfl⟩
  obtain ⟨p', hp'⟩ : ∃ p, p = (x'.mean.bind fun m => x'.cholCov.bind fun L =>
      smootherParams qr' m L (dyn' u).1 (dyn' u).2.1 (dyn' u).2.2) := ⟨_, rfl⟩
  rw [← hp, ← hp'] at hs
  have e1 : smootherPrepare qr dyn opts x u = ⟨p, u, if opts.storeGain then some (p.map (·.E)) else none,
      if opts.storeCholCovGivenNext then some (p.map (·.D)) else none⟩ := by
    simp only [smootherPrepare, Option.bind_eq_bind, hp]
  have e2 : smootherPrepare qr' dyn' opts x' u = ⟨p', u, if opts.storeGain then some (p'.map (·.E)) else none,
      if opts.storeCholCovGivenNext then some (p'.map (·.D)) else none⟩ := by
    simp only [smootherPrepare, Option.bind_eq_bind, hp']
  have hE : p.map (·.E) = p'.map (·.E) := by
    have := congrArg (Option.map SElem.E) hs
    simp only [Option.map_map] at this
    exact this
  have hD : (p.map (·.D)).map (fun D => D * Dᵀ) = (p'.map (·.D)).map (fun D => D * Dᵀ) := by
    have := congrArg (Option.map SElem.C) hs
    simp only [Option.map_map] at this ⊢
    exact this
  rw [e1, e2]
  simp only [sRoot]
  rw [hs, hE]
  cases opts.storeCholCovGivenNext with
  | false => rfl
  | true => simp only [if_true, Option.map_some]; rw [hD]

theorem sRoot_convert (opts : SmootherOpts nx Inp) (xT xT' : FilterState nx Inp) (d : Inp)
    (hm : xT'.mean = xT.mean)
    (hC : xT'.cholCov.map (fun L => L * Lᵀ) = xT.cholCov.map (fun L => L * Lᵀ)) :
    sRoot (convert opts xT d) = sRoot (convert opts xT' d) := by
  simp only [sRoot, convert, hm, Prod.mk.injEq, and_true]
  cases xT.mean with
  | none => rfl
  | some m =>
    cases hL : xT.cholCov with
    | none =>
      rw [hL] at hC
      cases hL' : xT'.cholCov with
      | none => rfl
      | some L' => rw [hL'] at hC; cases hC
    | some L =>
      rw [hL] at hC
      cases hL' : xT'.cholCov with
      | none => rw [hL'] at hC; cases hC
      | some L' =>
        rw [hL', Option.map_some, Option.map_some, Option.some.injEq] at hC
        simp only [Option.bind_eq_bind, Option.bind_some, Option.pure_def, Option.map_some, sForm]
        rw [hC]

/-- **C32** (smoother runs). Filter states with the same means and covariances, dynamics with the same
covariances and any two QR routines give the same smoothing means, covariances, gains and conditional
covariances at every time, in both modes, including non-finite ones. -/
theorem kalman_smoother_root_independent (qr qr' : QR) (rng rng' : Prng K)
    (inputsOf : FilterState nx Inp → Inp) (dummy : Inp → Except Err Inp)
    (dyn dyn' : Inp → Matrix (Fin nx) (Fin nx) ℝ × (Fin nx → ℝ) × Matrix (Fin nx) (Fin nx) ℝ)
    (hF : ∀ u, (dyn u).1 = (dyn' u).1) (hc : ∀ u, (dyn u).2.1 = (dyn' u).2.1)
    (hQ : ∀ u, (dyn u).2.2 * ((dyn u).2.2)ᵀ = (dyn' u).2.2 * ((dyn' u).2.2)ᵀ)
    (opts : SmootherOpts nx Inp) (fs fs' : List (FilterState nx Inp))
    (hfs : fs.map (fun s => (s.mean, s.cholCov.map fun L => L * Lᵀ)) =
      fs'.map (fun s => (s.mean, s.cholCov.map fun L => L * Lᵀ)))
    (inputs : List Inp) (hlen : inputs.length + 1 = fs.length) (parallel : Bool) (key key' : Option K) :
    (smoother rng inputsOf dummy (buildSmoother qr dyn opts) fs (some inputs) parallel key).result.map
      (List.map fun s => (s.mean, s.cholCov.map (fun L => L * Lᵀ), s.gain,
        s.cholCovGivenNext.map (Option.map fun D => D * Dᵀ))) =
    (smoother rng' inputsOf dummy (buildSmoother qr' dyn' opts) fs' (some inputs) parallel key').result.map
      (List.map fun s => (s.mean, s.cholCov.map (fun L => L * Lᵀ), s.gain,
        s.cholCovGivenNext.map (Option.map fun D => D * Dᵀ))) := by
  have key2 : ∀ r : Except Err (List (SmootherState nx Inp)),
      r.map (List.map fun s => (s.mean, s.cholCov.map (fun L => L * Lᵀ), s.gain,
        s.cholCovGivenNext.map (Option.map fun D => D * Dᵀ))) =
      (r.map (List.map sRoot)).map (List.map fun v =>
        (v.1.map (·.g), v.1.map (·.C), v.2.1, v.2.2)) := by
    intro r
    cases r with
    | error e => rfl
    | ok l =>
      simp only [Except.map, List.map_map, Except.ok.injEq]
      refine List.map_congr_left fun s _ => ?_
      simp only [Function.comp_apply, sRoot, SmootherState.mean, SmootherState.cholCov, Option.map_map]
      cases s.elem <;> rfl
  rw [key2, key2]
  congr 1
  have hlen' : inputs.length + 1 = fs'.length := by
    have := congrArg List.length hfs
    simp only [List.length_map] at this
    omega
  rw [smoother_core_eq _ _ _ _ _ _ hlen, smoother_core_eq _ _ _ _ _ _ hlen']
  -- corresponding filter states
  have hget : ∀ (t : ℕ) x, fs[t]? = some x → ∃ x', fs'[t]? = some x' ∧ x'.mean = x.mean ∧
      x'.cholCov.map (fun L => L * Lᵀ) = x.cholCov.map (fun L => L * Lᵀ) := by
    intro t x hx
    have h1 := congrArg (fun l => l[t]?) hfs
    simp only [List.getElem?_map, hx, Option.map_some] at h1
    cases hx' : fs'[t]? with
    | none => rw [hx'] at h1; cases h1
    | some x' =>
      rw [hx', Option.map_some, Option.some.injEq, Prod.mk.injEq] at h1
      exact ⟨x', rfl, h1.1.symm, h1.2.symm⟩
  have helems : (smootherElems rng (buildSmoother qr dyn opts) fs inputs key).map sRoot =
      (smootherElems rng' (buildSmoother qr' dyn' opts) fs' inputs key').map sRoot := by
    refine List.ext_getElem? fun t => ?_
    rw [List.getElem?_map, List.getElem?_map]
    rcases Nat.lt_or_ge t inputs.length with ht | ht
    · have hx : fs[t]? = some fs[t] := List.getElem?_eq_getElem (by omega)
      have hu : inputs[t]? = some inputs[t] := List.getElem?_eq_getElem ht
      obtain ⟨x', hx', h1, h2⟩ := hget t _ hx
      rw [smootherElems_get rng _ fs inputs key hlen t _ _ hx hu,
        smootherElems_get rng' _ fs' inputs key' hlen' t _ _ hx' hu, Option.map_some, Option.map_some]
      exact congrArg some (sRoot_prepare qr qr' dyn dyn' hF hc hQ opts _ _ _ h1 h2)
    · rw [List.getElem?_eq_none (by rw [smootherElems_length _ _ _ _ _ hlen]; omega),
        List.getElem?_eq_none (by rw [smootherElems_length _ _ _ _ _ hlen']; omega)]
  obtain ⟨xT, hxT⟩ : ∃ x, fs.getLast? = some x :=
    ⟨_, List.getLast?_eq_some_getLast (by intro e; subst e; simp at hlen)⟩
  obtain ⟨xT', hxT', hm, hC⟩ : ∃ x', fs'.getLast? = some x' ∧ x'.mean = xT.mean ∧
      x'.cholCov.map (fun L => L * Lᵀ) = xT.cholCov.map (fun L => L * Lᵀ) := by
    rw [List.getLast?_eq_getElem?] at hxT ⊢
    rw [show fs'.length - 1 = fs.length - 1 by omega]
    exact hget _ _ hxT
  simp only [smootherCore, hxT, hxT']
  cases hin : inputs[0]? with
  | none => rfl
  | some u =>
    simp only
    cases hdu : dummy u with
    | error e => rfl
    | ok d =>
      simp only [Except.map, Except.ok.injEq]
      have hfin := sRoot_convert opts xT xT' d hm hC
      cases parallel with
      | false =>
        have h1 := backFold_map (smootherCombine qr) sRootOp sRoot (fun a b => sRoot_combine qr a b)
          (convert opts xT d) (smootherElems rng (buildSmoother qr dyn opts) fs inputs key)
        have h2 := backFold_map (smootherCombine qr') sRootOp sRoot (fun a b => sRoot_combine qr' a b)
          (convert opts xT' d) (smootherElems rng' (buildSmoother qr' dyn' opts) fs' inputs key')
        exact h1.trans (by rw [hfin, helems, ← h2]; rfl)
      | true =>
        simp only [if_true, associativeScanRev, List.map_reverse]
        congr 1
        have h1 := (associativeScan_map (fun c n => smootherCombine qr n c) (fun c n => sRootOp n c) sRoot
          (fun _ => True) (fun _ _ _ _ => trivial) (fun a b _ _ => sRoot_combine qr b a)
          (smootherElems rng (buildSmoother qr dyn opts) fs inputs key ++ [convert opts xT d]).reverse
          (fun _ _ => trivial)).1
        have h2 := (associativeScan_map (fun c n => smootherCombine qr' n c) (fun c n => sRootOp n c) sRoot
          (fun _ => True) (fun _ _ _ _ => trivial) (fun a b _ _ => sRoot_combine qr' b a)
          (smootherElems rng' (buildSmoother qr' dyn' opts) fs' inputs key' ++
            [convert opts xT' d]).reverse (fun _ _ => trivial)).1
        refine h1.trans (Eq.trans ?_ h2.symm)
        rw [List.map_reverse, List.map_reverse, List.map_append, List.map_append, helems,
          List.map_singleton, List.map_singleton, hfin]

/-- Non-vacuity for C32: flipping the sign of every factor (which a QR routine may do) gives the same
model, and a different callback. -/
example : SameModel (scalarModel 1 1) (scalarModel (-1) (-1)) ∧ scalarModel 1 1 ≠ scalarModel (-1) (-1) ∧
    (∀ u, IsLower ((scalarModel 1 1).getInit u).2) := by
  refine ⟨⟨fun _ => rfl, ?_, fun _ => rfl, fun _ => rfl, ?_, fun _ => rfl, fun _ => rfl, fun _ => rfl,
    fun _ => rfl⟩, ?_, fun _ i j h => absurd h (by omega)⟩
  · intro u
    ext i j
    simp [scalarModel, Matrix.mul_apply]
  · intro u
    ext i j
    simp [scalarModel, Matrix.mul_apply]
  · intro h
    have := congrArg (fun cb : Callbacks 1 1 Unit => (cb.getInit ()).2 0 0) h
    simp only [scalarModel, Matrix.of_apply] at this
    norm_num at this

end

end Cuthbert.Kalman
