import Verif.Spec.Constraints
import Verif.Props.NanStates
import Verif.Props.LogLik
import Verif.Props.Discrete
import Verif.Props.ParticleFilterRuns

/-!
# C140: estimates satisfy the constraints that the model satisfies
-/

namespace Cuthbert.Kalman
open MeasureTheory Matrix Cuthbert Cuthbert.Spec
open scoped ENNReal

noncomputable section

variable {nx ny k : ℕ} {Inp K : Type}

theorem matrix_eq_zero_of_mulVec {ι κ : Type*} [Fintype κ] {A : Matrix ι κ ℝ} (h : ∀ v, A *ᵥ v = 0) : A = 0 := by
  classical
  ext i j
  have := congrFun (h (Pi.single j 1)) i
  simpa using this

/-- One step of the exact filter keeps a constraint on mean and covariance. -/
theorem kfStep_keeps {C C' : Matrix (Fin k) (Fin nx) ℝ} {b b' : Fin k → ℝ} {s : Step nx ny} (h : Keeps C b s C' b') (f : KF nx)
    (hm : C *ᵥ f.m = b) (hP : C * f.P = 0) :
    C' * (s.F * f.P * s.Fᵀ + s.cholQ * s.cholQᵀ) = 0 ∧ C' *ᵥ (kfStep f s).m = b' ∧ C' * (kfStep f s).P = 0 := by
  have h0 : C' *ᵥ (s.F *ᵥ f.m + s.c) = b' := by
    have := h f.m 0 hm
    rwa [mulVec_zero, add_zero] at this
  have h1 : C' * s.F * f.P = 0 := by
    refine matrix_eq_zero_of_mulVec fun v => ?_
    have hx : C *ᵥ (f.m + f.P *ᵥ v) = b := by rw [mulVec_add, hm, mulVec_mulVec, hP, zero_mulVec, add_zero]
    have h2 := h _ 0 hx
    rw [mulVec_zero, add_zero, mulVec_add s.F, add_right_comm, mulVec_add, h0] at h2
    have h3 : C' *ᵥ (s.F *ᵥ (f.P *ᵥ v)) = 0 := by simpa using h2
    rw [← h3]
    simp only [mulVec_mulVec, Matrix.mul_assoc]
  have h4 : C' * s.cholQ = 0 := by
    refine matrix_eq_zero_of_mulVec fun v => ?_
    have h2 := h _ v hm
    rw [mulVec_add, h0, mulVec_mulVec] at h2
    simpa using h2
  have hpred : C' * (s.F * f.P * s.Fᵀ + s.cholQ * s.cholQᵀ) = 0 := by
    rw [Matrix.mul_add, ← Matrix.mul_assoc, ← Matrix.mul_assoc, h1, Matrix.zero_mul, ← Matrix.mul_assoc, h4, Matrix.zero_mul,
      add_zero]
  refine ⟨hpred, ?_, ?_⟩
  · rw [kfStep]
    dsimp only
    rw [condMean, mulVec_add, h0, mulVec_mulVec, hpred, zero_mulVec, add_zero]
  · rw [kfStep]
    dsimp only
    rw [condCov, Matrix.mul_sub, hpred, ← Matrix.mul_assoc, ← Matrix.mul_assoc, hpred, Matrix.zero_mul, Matrix.zero_mul, sub_zero]

/-- The exact filter keeps constraints. -/
theorem kfAt_keeps (cb : Callbacks nx ny Inp) (u₀ : Inp) (us : List Inp) {C : ℕ → Matrix (Fin k) (Fin nx) ℝ} {b : ℕ → Fin k → ℝ}
    (h0 : Starts (C 0) (b 0) (cb.getInit u₀).1 (cb.getInit u₀).2)
    (h : ∀ (t : ℕ) u, us[t]? = some u → Keeps (C t) (b t) (stepOf cb u) (C (t + 1)) (b (t + 1))) :
    ∀ t ≤ us.length, C t *ᵥ (kfAt cb u₀ us t).m = b t ∧ C t * (kfAt cb u₀ us t).P = 0 := by
  intro t
  induction t with
  | zero =>
    intro _
    have e1 : C 0 *ᵥ (cb.getInit u₀).1 = b 0 := by simpa using h0 0
    refine ⟨e1, ?_⟩
    have e2 : C 0 * (cb.getInit u₀).2 = 0 := by
      refine matrix_eq_zero_of_mulVec fun v => ?_
      have := h0 v
      rw [mulVec_add, e1, mulVec_mulVec] at this
      simpa using this
    show C 0 * ((cb.getInit u₀).2 * ((cb.getInit u₀).2)ᵀ) = 0
    rw [← Matrix.mul_assoc, e2, Matrix.zero_mul]
  | succ t ih =>
    intro ht
    have hu : us[t]? = some us[t] := List.getElem?_eq_getElem (by omega)
    obtain ⟨i1, i2⟩ := ih (by omega)
    rw [kfAt_succ cb u₀ us t _ hu]
    exact (kfStep_keeps (h t _ hu) _ i1 i2).2

theorem mul_eq_zero_of_gram {C : Matrix (Fin k) (Fin nx) ℝ} {L : Matrix (Fin nx) (Fin nx) ℝ} (h : C * (L * Lᵀ) = 0) :
    C * L = 0 := by
  have : (C * L) * (C * L)ᵀ = 0 := by
    rw [Matrix.transpose_mul, ← Matrix.mul_assoc, Matrix.mul_assoc C, h, Matrix.zero_mul]
  rw [← conjTranspose_eq_transpose_of_trivial] at this
  exact self_mul_conjTranspose_eq_zero.mp this

/-- **C140** (Kalman filter). If the model keeps the state in the affine spaces `C_t x = b_t`, then at each time the filtering
mean `m` satisfies `C_t m = b_t` and the filtering law has no variance across: `C_t L = 0`. The data may contradict the
constraints. -/
theorem filter_keeps_constraints_partial (qr : QR) (rng : Prng K) (cb : Callbacks nx ny Inp) (u₀ : Inp) (us : List Inp) (parallel : Bool)
    (key : Option K) (hR : ∀ u ∈ us, (stepOf cb u).R.det ≠ 0) {C : ℕ → Matrix (Fin k) (Fin nx) ℝ} {b : ℕ → Fin k → ℝ}
    (h0 : Starts (C 0) (b 0) (cb.getInit u₀).1 (cb.getInit u₀).2)
    (h : ∀ (t : ℕ) u, us[t]? = some u → Keeps (C t) (b t) (stepOf cb u) (C (t + 1)) (b (t + 1))) :
    ∃ states, (filter rng (buildFilter qr cb) (u₀ :: us) parallel key).result = .ok states ∧ states.length = us.length + 1 ∧
      ∀ t s, states[t]? = some s → ∃ m L, s.mean = some m ∧ s.cholCov = some L ∧ C t *ᵥ m = b t ∧ C t * L = 0 := by
  obtain ⟨states, hst, hlen, -⟩ := kalman_filter_exact qr rng cb u₀ us parallel key hR
  refine ⟨states, hst, hlen, fun t s hs => ?_⟩
  have ht : t ≤ us.length := by
    have := (List.getElem?_eq_some_iff.mp hs).1
    omega
  obtain ⟨-, -, hf⟩ := filter_run_facts qr rng cb u₀ us parallel key (fun u hu => ScanOk.of_R _ (hR u hu)) states hst
  obtain ⟨s', e, h1, h2, h3⟩ := hf t ht
  rw [hs, Option.some.injEq] at h1
  subst h1
  obtain ⟨k1, k2⟩ := kfAt_keeps cb u₀ us h0 h t ht
  refine ⟨e.b, e.U, by simp [FilterState.mean, h2], by simp [FilterState.cholCov, h2], ?_, ?_⟩
  · rw [show e.b = (kfAt cb u₀ us t).m from h3.b]
    exact k1
  · exact mul_eq_zero_of_gram (by rw [show e.U * e.Uᵀ = (kfAt cb u₀ us t).P from h3.C]; exact k2)

/-- **C140** (the full claim is false for the Kalman smoother). If the model has a nontrivial constraint at time `t + 1`, the
smoother returns NaN at time `t` and before. -/
theorem smoother_nan_of_constraint (qr : QR) (rng rng' : Prng K) (cb : Callbacks nx ny Inp) (u₀ : Inp) (us : List Inp)
    (parallel parallel' : Bool) (key key' : Option K) (opts : SmootherOpts nx Inp) (dummy : Inp → Except Err Inp)
    (hR : ∀ u ∈ us, (stepOf cb u).R.det ≠ 0) {C : ℕ → Matrix (Fin k) (Fin nx) ℝ}
    {b : ℕ → Fin k → ℝ} (h0 : Starts (C 0) (b 0) (cb.getInit u₀).1 (cb.getInit u₀).2)
    (h : ∀ (t : ℕ) u, us[t]? = some u → Keeps (C t) (b t) (stepOf cb u) (C (t + 1)) (b (t + 1)))
    {filterStates : List (FilterState nx Inp)}
    (hf : (filter rng (buildFilter qr cb) (u₀ :: us) parallel key).result = .ok filterStates)
    {states : List (SmootherState nx Inp)}
    (hs : (smoother rng' FilterState.modelInputs dummy (buildSmoother qr cb.getDynamics opts) filterStates
      (some us) parallel' key').result = .ok states) {t : ℕ} (ht : t < us.length) (hC : C (t + 1) ≠ 0) {t' : ℕ} (ht' : t' ≤ t)
    {s : SmootherState nx Inp} (hst : states[t']? = some s) : s.mean = none := by
  obtain ⟨hlen, -, hfs⟩ := filter_run_facts qr rng cb u₀ us parallel key (fun u hu => ScanOk.of_R _ (hR u hu)) filterStates hf
  refine (kalman_smoother_nan_iff qr rng' cb.getDynamics opts dummy filterStates us hlen.symm parallel' key' states hs t' s hst).mpr ?_
  obtain ⟨x, e, h1, h2, h3⟩ := hfs t ht.le
  refine ⟨t, x, ht', h1, .inr ⟨us[t], e.U, List.getElem?_eq_getElem ht, by simp [FilterState.cholCov, h2], ?_⟩⟩
  have hu : us[t]? = some us[t] := List.getElem?_eq_getElem ht
  obtain ⟨k1, k2⟩ := kfAt_keeps cb u₀ us h0 h t ht.le
  have hz := (kfStep_keeps (h t _ hu) _ k1 k2).1
  rw [← show e.U * e.Uᵀ = (kfAt cb u₀ us t).P from h3.C] at hz
  by_contra hd
  apply hC
  have hinv := Matrix.mul_nonsing_inv _ (isUnit_iff_ne_zero.mpr hd)
  have := congrArg (· * ((cb.getDynamics us[t]).1 * (e.U * e.Uᵀ) * ((cb.getDynamics us[t]).1)ᵀ +
    (cb.getDynamics us[t]).2.2 * ((cb.getDynamics us[t]).2.2)ᵀ)⁻¹) hz
  rw [Matrix.zero_mul, Matrix.mul_assoc] at this
  rw [← Matrix.mul_one (C (t + 1)), ← hinv]
  exact this

theorem eq_zero_of_mul_det {C : Matrix (Fin k) (Fin nx) ℝ} {P : Matrix (Fin nx) (Fin nx) ℝ} (h : C * P = 0) (hd : P.det ≠ 0) :
    C = 0 := by
  have hinv := Matrix.mul_nonsing_inv _ (isUnit_iff_ne_zero.mpr hd)
  rw [← Matrix.mul_one C, ← hinv, ← Matrix.mul_assoc, h, Matrix.zero_mul]

/-- **C140** (the full claim is false for the log normalising constant). If the model has a nontrivial constraint at time `t'`,
the log normalising constants that the filter returns at later times are NaN in both modes. -/
theorem log_normalizer_nan_of_constraint (qr : QR) (rng : Prng K) (cb : Callbacks nx ny Inp) (u₀ : Inp) (us : List Inp)
    (parallel : Bool) (key : Option K) (hR : ∀ u ∈ us, (stepOf cb u).R.det ≠ 0) (hlow : IsLower (cb.getInit u₀).2)
    {C : ℕ → Matrix (Fin k) (Fin nx) ℝ} {b : ℕ → Fin k → ℝ} (h0 : Starts (C 0) (b 0) (cb.getInit u₀).1 (cb.getInit u₀).2)
    (h : ∀ (t : ℕ) u, us[t]? = some u → Keeps (C t) (b t) (stepOf cb u) (C (t + 1)) (b (t + 1)))
    {states : List (FilterState nx Inp)}
    (hf : (filter rng (buildFilter qr cb) (u₀ :: us) parallel key).result = .ok states) {t t' : ℕ} (ht : t' < t) (hC : C t' ≠ 0)
    {s : FilterState nx Inp} (hs : states[t]? = some s) : s.logNormalizingConstant = none := by
  obtain ⟨seq, par, h1, h2, h3⟩ := log_likelihood_finite_iff qr rng rng cb u₀ us key key hR hlow
  have htl : t ≤ us.length := by
    obtain ⟨hlen, -⟩ := filter_run_facts qr rng cb u₀ us parallel key (fun u hu => ScanOk.of_R _ (hR u hu)) states hf
    have := (List.getElem?_eq_some_iff.mp hs).1
    omega
  obtain ⟨x, p, hx, hp, h4, h5⟩ := h3 t htl
  have hnone : x.logNormalizingConstant = none := by
    by_contra hne
    obtain ⟨s', L, hs', hL, hd⟩ := h4.mp hne t' ht
    obtain ⟨-, -, hfs⟩ := filter_run_facts qr rng cb u₀ us false key (fun u hu => ScanOk.of_R _ (hR u hu)) seq h1
    obtain ⟨y, e, e1, e2, e3⟩ := hfs t' (by omega)
    rw [hs', Option.some.injEq] at e1
    subst e1
    have hLe : L = e.U := by
      have : s'.cholCov = some e.U := by simp [FilterState.cholCov, e2]
      rw [hL] at this
      exact Option.some.inj this
    rw [hLe, show e.U * e.Uᵀ = (kfAt cb u₀ us t').P from e3.C] at hd
    exact hC (eq_zero_of_mul_det (kfAt_keeps cb u₀ us h0 h t' (by omega)).2 hd)
  cases parallel with
  | false =>
    rw [h1, Except.ok.injEq] at hf
    subst hf
    rw [hs, Option.some.injEq] at hx
    rw [hx, hnone]
  | true =>
    rw [h2, Except.ok.injEq] at hf
    subst hf
    rw [hs, Option.some.injEq] at hp
    rw [hp]
    by_contra hne
    exact hne (by rw [h5 hne, hnone])

/-- Paths that the model can produce satisfy the constraints, also under the weights of the likelihoods. -/
theorem pathExp_keeps : ∀ (ss : List (Step nx ny)) (C : ℕ → Matrix (Fin k) (Fin nx) ℝ) (b : ℕ → Fin k → ℝ)
    (_ : ∀ (t : ℕ) s, ss[t]? = some s → Keeps (C t) (b t) s (C (t + 1)) (b (t + 1))) (f : (ℕ → Fin nx → ℝ) → ℝ≥0∞)
    (_ : Measurable f) (x : Fin nx → ℝ) (_ : C 0 *ᵥ x = b 0)
    (_ : ∀ p : ℕ → Fin nx → ℝ, p 0 = x → (∀ t ≤ ss.length, C t *ᵥ p t = b t) → f p = 0), pathExp ss f x = 0
  | [], C, b, _, f, _, x, hx, h => by
    rw [pathExp]
    refine h _ rfl fun t ht => ?_
    rw [List.length_nil, Nat.le_zero] at ht
    rw [ht]
    exact hx
  | s :: ss, C, b, hk, f, hf, x, hx, h => by
    have hf' : Measurable fun p : ℕ → Fin nx → ℝ => f (pathCons x p) := hf.comp (measurable_pathCons measurable_const measurable_id)
    have hm : Measurable fun x' => s.lik x' * pathExp ss (fun p => f (pathCons x p)) x' :=
      s.measurable_lik.mul (measurable_pathExp' ss hf')
    rw [pathExp, lintegral_gauss _ _ hm]
    refine (lintegral_congr fun w => ?_).trans lintegral_zero
    rw [pathExp_keeps ss (fun t => C (t + 1)) (fun t => b (t + 1)) (fun t a ha => hk (t + 1) a ha) _ hf' _
      (hk 0 s rfl x w hx), mul_zero]
    intro p _ hp2
    refine h _ rfl fun t ht => ?_
    cases t with
    | zero => exact hx
    | succ t => exact hp2 t (by simpa using ht)

/-- C140: the exact smoothing law, which the smoother fails to return, satisfies the constraints. -/
theorem smoothing_law_keeps (cb : Callbacks nx ny Inp) (u₀ : Inp) (us : List Inp) {C : ℕ → Matrix (Fin k) (Fin nx) ℝ}
    {b : ℕ → Fin k → ℝ} (h0 : Starts (C 0) (b 0) (cb.getInit u₀).1 (cb.getInit u₀).2)
    (h : ∀ (t : ℕ) u, us[t]? = some u → Keeps (C t) (b t) (stepOf cb u) (C (t + 1)) (b (t + 1))) {t : ℕ} (ht : t ≤ us.length) :
    jointExp (cb.getInit u₀).1 (cb.getInit u₀).2 (us.map (stepOf cb)) (fun p => if C t *ᵥ p t = b t then 0 else 1) = 0 := by
  have hC : Measurable fun p : ℕ → Fin nx → ℝ => C t *ᵥ p t := (measurable_mulVec (C t)).comp (measurable_pi_apply t)
  have hf : Measurable fun p : ℕ → Fin nx → ℝ => if C t *ᵥ p t = b t then (0 : ℝ≥0∞) else 1 :=
    Measurable.ite (hC (measurableSet_singleton (b t))) measurable_const measurable_const
  rw [jointExp, lintegral_gauss _ _ (measurable_pathExp' _ hf)]
  refine (lintegral_congr fun w => ?_).trans lintegral_zero
  refine pathExp_keeps _ C b (fun t s hs => ?_) _ hf _ (h0 w) fun p _ hp => if_pos (hp t (by simpa using ht))
  rw [List.getElem?_map, Option.map_eq_some_iff] at hs
  obtain ⟨u, hu, rfl⟩ := hs
  exact h t u hu

/-- Two compartments between which a substance moves: the total amount is constant. -/
def compartments (p q y : ℝ) : Callbacks 2 1 Unit where
  getInit _ := (![1, 0], !![1, 0; -1, 0])
  getDynamics _ := (!![1 - p, q; p, 1 - q], ![0, 0], !![1, 0; -1, 0])
  getObservation _ := (!![1, 0], ![0], !![1], ![some y])

/-- Non-vacuity: the total of the two compartments. -/
theorem exists_constraint (p q y : ℝ) : (∀ u, (stepOf (compartments p q y) u).R.det ≠ 0) ∧
    IsLower ((compartments p q y).getInit ()).2 ∧ !![(1 : ℝ), 1] ≠ 0 ∧
    Starts !![1, 1] ![1] ((compartments p q y).getInit ()).1 ((compartments p q y).getInit ()).2 ∧
    ∀ u, Keeps !![1, 1] ![1] (stepOf (compartments p q y) u) !![1, 1] ![1] := by
  refine ⟨fun u => obsR_det _ _ (by simp [stepOf, compartments, Matrix.vecMul, dotProduct]), ?_, ?_, ?_, ?_⟩
  · intro i j hij
    fin_cases i <;> fin_cases j <;> simp_all [compartments]
  · intro h
    have := congrFun (congrFun h 0) 0
    simp at this
  · intro w
    funext i
    fin_cases i
    simp [compartments, Matrix.mulVec, dotProduct, Fin.sum_univ_two]
  · intro u x w hx
    have h1 := congrFun hx 0
    funext i
    fin_cases i
    simp [compartments, stepOf, Matrix.mulVec, dotProduct, Fin.sum_univ_two] at h1 ⊢
    linarith

end

end Cuthbert.Kalman

namespace Cuthbert.Discrete
open Cuthbert Spec Fl

variable {n : ℕ} {Inp K : Type} {M : HMM (Fin (n + 1))} {getInit : Inp → Fin (n + 1) → Fl}
  {getTrans : Inp → Fin (n + 1) → Fin (n + 1) → Fl} {getObs : Inp → Fin (n + 1) → Fl} {inputs : List Inp}

/-- Paths of positive probability stay in the sets. -/
theorem joint_staysIn {A : ℕ → Set (Fin (n + 1))} {T : ℕ} (h : M.StaysIn A T) (x : Fin (T + 1) → Fin (n + 1))
    (hx : M.joint T x ≠ 0) : ∀ t : Fin (T + 1), x t ∈ A t := by
  have h1 : M.init (x 0) ≠ 0 := fun h0 => hx (by rw [HMM.joint, h0, zero_mul])
  have h2 : ∀ t : Fin T, M.trans t (x t.castSucc) (x t.succ) ≠ 0 := fun t h0 => hx (by
    rw [HMM.joint, Finset.prod_eq_zero (Finset.mem_univ t) (by rw [h0, zero_mul]), mul_zero])
  intro t
  induction t using Fin.induction with
  | zero => exact by_contra fun hc => h1 (h.init _ hc)
  | succ t ih => exact by_contra fun hc => h2 t (h.trans t t.isLt _ ih _ hc)

theorem filterJoint_staysIn {A : ℕ → Set (Fin (n + 1))} {T t : ℕ} (h : M.StaysIn A T) (ht : t ≤ T) {i : Fin (n + 1)}
    (hi : i ∉ A t) : M.filterJoint t i = 0 := by
  have h' : M.StaysIn A t := ⟨h.init, fun s hs => h.trans s (by omega)⟩
  refine Finset.sum_eq_zero fun x _ => ?_
  split_ifs with hx
  · by_contra hne
    have := joint_staysIn h' x hne (Fin.last t)
    rw [hx] at this
    exact hi this
  · rfl

/-- **C140** (discrete filter). States that the model excludes at time `t` get probability zero. -/
theorem filter_keeps_constraints_partial (hR : Represents M getInit getTrans getObs inputs) (hV : Valid M) (hne : inputs ≠ [])
    (hpos : RowsPositive M (inputs.length - 1)) {A : ℕ → Set (Fin (n + 1))} (hA : M.StaysIn A (inputs.length - 1))
    (rng : Prng K) (key : Option K) (parallel : Bool) :
    ∃ states, (filter rng (buildFilter (K := K) getInit getTrans getObs) inputs parallel key).result = .ok states ∧
      states.length = inputs.length ∧ ∀ t s, states[t]? = some s → ∀ i, i ∉ A t → s.dist i = fin 0 := by
  obtain ⟨states, h1, h2, h3⟩ := discrete_filter_exact hR hV hne hpos rng key parallel
  refine ⟨states, h1, h2, fun t s hs i hi => ?_⟩
  have ht : t < states.length := (List.getElem?_eq_some_iff.mp hs).1
  rw [(h3 t s hs).1 i, HMM.filterLaw, filterJoint_staysIn hA (by omega) hi, zero_div]

/-- **C140** (discrete smoother). Where all states are reachable the smoother satisfies the constraints, trivially; and if the
model excludes a state at time `t + 1`, the full claim is false: the sequential smoother returns NaN at time `t`. -/
theorem smoother_nan_of_constraint (hR : Represents M getInit getTrans getObs inputs) (hV : Valid M)
    (T : ℕ) (hT : inputs.length = T + 1) (hpos : RowsPositive M T) {A : ℕ → Set (Fin (n + 1))} (hA : M.StaysIn A T)
    {t : ℕ} (ht : t < T) {j : Fin (n + 1)} (hj : j ∉ A (t + 1)) (rng rng' : Prng K)
    (key key' : Option K) (parallel : Bool) (dummy : Inp → Inp) (filterStates : List (FilterState n Inp))
    (h : (filter rng (buildFilter (K := K) getInit getTrans getObs) inputs parallel key).result
      = .ok filterStates) (states : List (SmootherState n Inp))
    (hst : (smoother rng' FilterState.modelInputs (fun u => .ok (dummy u))
        (buildSmoother dummy getTrans) filterStates none false key').result = .ok states)
    (s : SmootherState n Inp) (hs : states[t]? = some s) : ∀ k, s.dist k = nan := by
  refine discrete_smoother_nan_if_unreachable hR hV T hT hpos t ht j ?_ rng rng' key key' parallel dummy filterStates h states hst s hs
  refine Finset.sum_eq_zero fun i _ => ?_
  by_cases hi : i ∈ A t
  · rw [hA.trans t ht i hi j hj, mul_zero]
  · rw [filterJoint_staysIn hA ht.le hi, zero_mul]

/-- Non-vacuity: a chain that starts and stays in state zero. -/
theorem exists_constraint (inputs : List Unit) : ∃ M : HMM (Fin 2),
    Represents M (fun _ j => if j = 0 then fin 1 else fin 0) (fun _ i j => if i = j then fin 1 else fin 0) (fun _ _ => fin 0)
      inputs ∧ Valid M ∧ (∀ T, RowsPositive M T) ∧ (∀ T, M.StaysIn (fun _ => {0}) T) := by
  refine ⟨⟨fun j => if j = 0 then 1 else 0, fun _ i j => if i = j then 1 else 0, fun _ _ => 1⟩, ⟨?_, ?_, ?_⟩, ⟨?_, ?_, ?_, ?_⟩,
    ?_, fun T => ⟨?_, ?_⟩⟩
  · intro u _ j
    dsimp only
    split_ifs <;> rfl
  · intro t u _ i j
    dsimp only
    split_ifs <;> rfl
  · intro t u _ j
    exact ⟨trivial, Real.exp_zero⟩
  · intro j
    dsimp only
    split_ifs <;> norm_num
  · simp
  · intro t i j
    dsimp only
    split_ifs <;> norm_num
  · intro t i
    simp
  · intro T t _ i
    simp
  · intro i hi
    exact if_neg hi
  · intro t _ i hi j hj
    rw [Set.mem_singleton_iff] at hi
    subst hi
    exact if_neg fun h => hj (by rw [← h]; rfl)

end Cuthbert.Discrete

namespace Cuthbert.SMC
open Cuthbert Resampling Spec

variable {K X Inp : Type} {N : ℕ}

/-- **C140** (particle filter). If the proposals keep the particles in the sets `A t`, all particles the filter returns at time `t`
are in `A t`. -/
theorem filter_keeps_constraints (rng : Prng K) (mdl : FKModel K X Inp) (dummy : X) (R : Resampler K N X)
    (hR : ∀ k l pos r, R k l pos N = .ok r → ∀ m, r.positions m = pos (r.idx m)) (u0 : Inp) (us : List Inp) (key : Option K)
    {A : ℕ → Set X} (h0 : ∀ k, mdl.initSample k u0 ∈ A 0)
    (h : ∀ t (ht : t < us.length) k, ∀ x ∈ A t, mdl.propagate k x us[t] ∈ A (t + 1)) :
    ∃ states, (filter rng (particleFilter rng mdl dummy N R) (u0 :: us) false key).result = .ok states ∧
      states.length = us.length + 1 ∧ ∀ t s, states[t]? = some (.ok s) → ∀ i, s.particles i ∈ A t := by
  obtain ⟨states, h1, h2, h3⟩ := particle_filter_genealogy rng mdl dummy R hR u0 us key
  refine ⟨states, h1, h2, fun t => ?_⟩
  induction t with
  | zero =>
    intro s hs i
    rw [filter_sequential_eq, Except.ok.injEq] at h1
    rw [← h1, runningFold_get_zero, Option.some.injEq] at hs
    cases hk : keyAt rng key (us.length + 1) 0 with
    | none => rw [hk] at hs; cases hs
    | some k =>
      rw [hk] at hs
      rw [← Except.ok.inj hs]
      exact h0 _
  | succ t ih =>
    intro s' hs' i
    have ht : t < us.length := by
      have := (List.getElem?_eq_some_iff.mp hs').1
      omega
    obtain ⟨s, -, -, hs, -, -, hp, -⟩ := h3 t ht s' hs'
    obtain ⟨k', hk'⟩ := hp i
    rw [hk']
    exact h t ht k' _ (ih s hs _)

end Cuthbert.SMC
