import Verif.Props.Grid
import Verif.Props.GridDiscrete

/-!
# Padding a sequence with steps without an observation (C109)
-/

namespace Cuthbert.Kalman
open MeasureTheory Matrix Cuthbert Cuthbert.Spec
open scoped ENNReal

noncomputable section

variable {nx ny : ℕ} {Inp K K' : Type}

theorem pathExp_missing (pad : List (Step nx ny)) (h : ∀ s ∈ pad, ∀ i, s.y i = none) :
    ∀ (g : (Fin nx → ℝ) → ℝ≥0∞) (x : Fin nx → ℝ), pathExp pad (fun p => g (p 0)) x = g x := by
  induction pad with
  | nil => intro g x; rfl
  | cons s pad ih =>
    intro g x
    have h1 : ∀ x', pathExp pad (fun _ => g x) x' = g x := fun x' =>
      ih (fun s' hs' => h s' (List.mem_cons_of_mem _ hs')) (fun _ => g x) x'
    simp only [pathExp, pathCons, lik_missing s (h s List.mem_cons_self), one_mul, h1, lintegral_const]
    simp

/-- Steps without an observation at the end do not matter for what concerns the earlier times. -/
theorem pathExp_padded (ss pad : List (Step nx ny)) (h : ∀ s ∈ pad, ∀ i, s.y i = none) :
    ∀ (g : (ℕ → Fin nx → ℝ) → ℝ≥0∞) (x : Fin nx → ℝ),
      pathExp (ss ++ pad) (fun p => g fun t => p (min t ss.length)) x = pathExp ss g x := by
  induction ss with
  | nil => intro g x; simpa [pathExp] using pathExp_missing pad h (fun z => g fun _ => z) x
  | cons s ss ih =>
    intro g x
    simp only [List.cons_append, pathExp]
    refine lintegral_congr fun x' => ?_
    congr 1
    rw [← ih (fun p => g (pathCons x p)) x']
    congr 1
    funext p
    congr 1
    funext t
    cases t with
    | zero => simp [pathCons]
    | succ t => simp [pathCons, List.length_cons, Nat.succ_min_succ]

theorem jointExp_padded (m0 : Fin nx → ℝ) (P0 : Matrix (Fin nx) (Fin nx) ℝ) (ss pad : List (Step nx ny))
    (h : ∀ s ∈ pad, ∀ i, s.y i = none) (t : ℕ) (ht : t ≤ ss.length) (φ : (Fin nx → ℝ) → ℝ≥0∞) :
    jointExp m0 P0 (ss ++ pad) (fun p => φ (p t)) = jointExp m0 P0 ss fun p => φ (p t) := by
  rw [jointExp, jointExp]
  refine lintegral_congr fun x => ?_
  have e := pathExp_padded ss pad h (fun p => φ (p t)) x
  beta_reduce at e
  rwa [min_eq_left ht] at e

/-- **C109**, filter. Appending steps at which nothing is observed leaves the results at the earlier times as they are,
and the log normalising constant stays, from the end of the original sequence on, at its value there. -/
theorem filter_padded (qr qr' : QR) (rng : Prng K) (rng' : Prng K') (cb : Callbacks nx ny Inp) (u₀ : Inp)
    (us pad : List Inp) (parallel parallel' : Bool) (key : Option K) (key' : Option K')
    (hpad : ∀ u ∈ pad, ∀ i, (stepOf cb u).y i = none) (hR : ∀ u ∈ us, (stepOf cb u).R.det ≠ 0) :
    ∃ states states', (filter rng (buildFilter qr cb) (u₀ :: us) parallel key).result = .ok states ∧
      (filter rng' (buildFilter qr' cb) (u₀ :: (us ++ pad)) parallel' key').result = .ok states' ∧
      states.length = us.length + 1 ∧ states'.length = us.length + pad.length + 1 ∧
      (∀ t ≤ us.length, ∃ s s' m L L', states[t]? = some s ∧ states'[t]? = some s' ∧
        s.mean = some m ∧ s'.mean = some m ∧ s.cholCov = some L ∧ s'.cholCov = some L' ∧ L' * L'ᵀ = L * Lᵀ ∧
        (IsLower (cb.getInit u₀).2 → ∀ l l', s.logNormalizingConstant = some l →
          s'.logNormalizingConstant = some l' → l' = l)) ∧
      (IsLower (cb.getInit u₀).2 → ∀ t ≥ us.length, ∀ s s' l l', states[us.length]? = some s → states'[t]? = some s' →
        s.logNormalizingConstant = some l → s'.logNormalizingConstant = some l' → l' = l) := by
  have hR' : ∀ u ∈ us ++ pad, (stepOf cb u).R.det ≠ 0 := by
    intro u hu
    rcases List.mem_append.1 hu with hu | hu
    · exact hR u hu
    · have : IsEmpty (Obs (stepOf cb u).y) := ⟨fun i => by have := i.2; rw [hpad u hu] at this; simp at this⟩
      rw [Matrix.det_isEmpty]; exact one_ne_zero
  obtain ⟨states, h1, h2, h3⟩ := kalman_filter_exact qr rng cb u₀ us parallel key hR
  obtain ⟨states', h1', h2', h3'⟩ := kalman_filter_exact qr' rng' cb u₀ (us ++ pad) parallel' key' hR'
  have hlen : states'.length = us.length + pad.length + 1 := by rw [h2', List.length_append]
  refine ⟨states, states', h1, h1', h2, hlen, fun t ht => ?_, fun hl t ht s s' v v' hs hs' hv hv' => ?_⟩
  · obtain ⟨s, m, L, l, h4, h5, h6, h7, h8⟩ := h3 t ht
    obtain ⟨s', m', L', l', h4', h5', h6', h7', h8'⟩ := h3' t (by rw [List.length_append]; omega)
    obtain ⟨e1, e2, e3⟩ := weighted_gauss_injective (m := m') (m' := m) (L := L') (M := L) (l := l') (l' := l)
      fun φ hφ => by rw [← h7' φ hφ, ← h7 φ hφ, List.take_append_of_le_length ht]
    subst e2
    refine ⟨s, s', m', L, L', h4, h4', h5, h5', h6, h6', e3, fun hl v v' hv hv' => ?_⟩
    rw [(h8 hl).1 v hv, (h8' hl).1 v' hv', e1]
  · have ht' : t ≤ (us ++ pad).length := by
      have := (List.getElem?_eq_some_iff.1 hs').1
      rw [h2'] at this; omega
    obtain ⟨s₁, m, L, l, h4, h5, h6, h7, h8⟩ := h3 us.length le_rfl
    obtain ⟨s₁', m', L', l', h4', h5', h6', h7', h8'⟩ := h3' t ht'
    obtain rfl : s₁ = s := Option.some.inj (h4.symm.trans hs)
    obtain rfl : s₁' = s' := Option.some.inj (h4'.symm.trans hs')
    have h9 := h7 (fun _ => 1) measurable_const
    have h9' := h7' (fun _ => 1) measurable_const
    rw [List.take_append, List.take_of_length_le ht, List.map_append, jointExp_padded _ _ _ _ (by
      intro s hs i
      obtain ⟨u, hu, rfl⟩ := List.mem_map.1 hs
      exact hpad u (List.mem_of_mem_take hu) i) 0 (Nat.zero_le _) (fun _ => 1)] at h9'
    rw [List.take_length] at h9
    have e := h9.symm.trans h9'
    simp only [lintegral_const, measure_univ, mul_one] at e
    rw [ENNReal.ofReal_eq_ofReal_iff (Real.exp_nonneg _) (Real.exp_nonneg _), Real.exp_eq_exp] at e
    rw [(h8 hl).1 v hv, (h8' hl).1 v' hv', e]

/-- **C109**, smoother. -/
theorem smoother_padded (qr qr' : QR) (rng rng₁ : Prng K) (rng' rng₁' : Prng K') (cb : Callbacks nx ny Inp) (u₀ : Inp)
    (us pad : List Inp) (hus : us ≠ []) (parallel parallel₁ parallel' parallel₁' : Bool)
    (key key₁ : Option K) (key' key₁' : Option K') (opts opts' : SmootherOpts nx Inp)
    (hpad : ∀ u ∈ pad, ∀ i, (stepOf cb u).y i = none) (hR : ∀ u ∈ us, (stepOf cb u).R.det ≠ 0)
    {filterStates filterStates' : List (FilterState nx Inp)}
    (hf : (filter rng (buildFilter qr cb) (u₀ :: us) parallel key).result = .ok filterStates)
    (hf' : (filter rng' (buildFilter qr' cb) (u₀ :: (us ++ pad)) parallel' key').result = .ok filterStates')
    (hP : ∀ (t : ℕ) s L u, filterStates'[t]? = some s → s.cholCov = some L → (us ++ pad)[t]? = some u →
      ((stepOf cb u).F * (L * Lᵀ) * ((stepOf cb u).F)ᵀ +
        (stepOf cb u).cholQ * ((stepOf cb u).cholQ)ᵀ).det ≠ 0) :
    ∃ (states states' : List (SmootherState nx Inp)),
      (smoother rng₁ FilterState.modelInputs (fun u => .ok (opts.dummy u))
        (buildSmoother qr cb.getDynamics opts) filterStates none parallel₁ key₁).result = .ok states ∧
      (smoother rng₁' FilterState.modelInputs (fun u => .ok (opts'.dummy u))
        (buildSmoother qr' cb.getDynamics opts') filterStates' none parallel₁' key₁').result = .ok states' ∧
      ∀ t ≤ us.length, ∃ s s' m L L', states[t]? = some s ∧ states'[t]? = some s' ∧
        s.mean = some m ∧ s'.mean = some m ∧ s.cholCov = some L ∧ s'.cholCov = some L' ∧ L' * L'ᵀ = L * Lᵀ := by
  have hR' : ∀ u ∈ us ++ pad, (stepOf cb u).R.det ≠ 0 := by
    intro u hu
    rcases List.mem_append.1 hu with hu | hu
    · exact hR u hu
    · have : IsEmpty (Obs (stepOf cb u).y) := ⟨fun i => by have := i.2; rw [hpad u hu] at this; simp at this⟩
      rw [Matrix.det_isEmpty]; exact one_ne_zero
  have hP₀ : ∀ (t : ℕ) s L u, filterStates[t]? = some s → s.cholCov = some L → us[t]? = some u →
      ((stepOf cb u).F * (L * Lᵀ) * ((stepOf cb u).F)ᵀ +
        (stepOf cb u).cholQ * ((stepOf cb u).cholQ)ᵀ).det ≠ 0 := by
    intro t s L u hs hL hu
    obtain ⟨fs, fs', g1, g2, -, -, g3, -⟩ :=
      filter_padded qr qr' rng rng' cb u₀ us pad parallel parallel' key key' hpad hR
    obtain rfl : fs = filterStates := Except.ok.inj (g1.symm.trans hf)
    obtain rfl : fs' = filterStates' := Except.ok.inj (g2.symm.trans hf')
    have ht : t < us.length := (List.getElem?_eq_some_iff.1 hu).1
    obtain ⟨s₁, s', m, L₁, L', k1, k2, -, -, k3, k4, k5, -⟩ := g3 t ht.le
    obtain rfl : s₁ = s := Option.some.inj (k1.symm.trans hs)
    obtain rfl : L₁ = L := Option.some.inj (k3.symm.trans hL)
    rw [← k5]
    exact hP t s' L' u k2 k4 (by rw [List.getElem?_append_left ht]; exact hu)
  obtain ⟨states, l, h1, h2, h3, -⟩ := kalman_smoother_exact qr rng rng₁ cb u₀ us hus parallel parallel₁ key
    key₁ opts hR filterStates hf hP₀ none (.inl rfl)
  obtain ⟨states', l', h1', h2', h3', -⟩ := kalman_smoother_exact qr' rng' rng₁' cb u₀ (us ++ pad) (by simp [hus])
    parallel' parallel₁' key' key₁' opts' hR' filterStates' hf' hP none (.inl rfl)
  refine ⟨states, states', h1, h1', fun t ht => ?_⟩
  obtain ⟨s, m, L, h4, h5, h6, h7⟩ := h3 t ht
  obtain ⟨s', m', L', h4', h5', h6', h7'⟩ := h3' t (by rw [List.length_append]; omega)
  obtain ⟨-, e2, e3⟩ := weighted_gauss_injective (m := m') (m' := m) (L := L') (M := L) (l := l') (l' := l) fun φ hφ => by
    rw [← h7' φ hφ, ← h7 φ hφ, List.map_append, jointExp_padded _ _ _ _ (by
      intro s hs i
      obtain ⟨u, hu, rfl⟩ := List.mem_map.1 hs
      exact hpad u hu i) t (by simpa using ht)]
  subst e2
  exact ⟨s, s', m', L, L', h4, h4', h5, h5', h6, h6', e3⟩

/-- Non-vacuity: a random walk with two observations and two more steps without one. -/
example : ∃ cb : Callbacks 1 1 ℕ, (∀ u ∈ [3, 4], ∀ i, (stepOf cb u).y i = none) ∧
    (∀ u ∈ [1, 2], (stepOf cb u).R.det ≠ 0) ∧ IsLower (cb.getInit 0).2 ∧ (∀ u ∈ [1, 2], (stepOf cb u).y ≠ fun _ => none) ∧
    ∀ (u : ℕ) (L : Matrix (Fin 1) (Fin 1) ℝ), ((stepOf cb u).F * (L * Lᵀ) * ((stepOf cb u).F)ᵀ +
        (stepOf cb u).cholQ * ((stepOf cb u).cholQ)ᵀ).det ≠ 0 := by
  refine ⟨⟨fun _ => (0, 1), fun _ => (1, 0, 1), fun u => (1, 0, 1, fun _ => if u ≤ 2 then some u else none)⟩,
    by simp [stepOf], fun u _ => obsR_det _ _ (by simp [stepOf]), ?_, ?_, ?_⟩
  · intro i j hij; exact absurd hij (by simp [Subsingleton.elim i j])
  · intro u hu h
    have := congrFun h 0
    simp only [List.mem_cons, List.not_mem_nil, or_false] at hu
    rcases hu with rfl | rfl <;> simp [stepOf] at this
  · intro u L
    have : 0 ≤ L 0 0 * L 0 0 := mul_self_nonneg _
    simp [stepOf, Matrix.det_unique, Matrix.mul_apply]
    positivity

end

end Cuthbert.Kalman

namespace Cuthbert.Spec.HMM
variable {X : Type*} [Fintype X] [DecidableEq X] {M : HMM X}

theorem future_missing {T : ℕ} (hlik : ∀ t ≥ T, ∀ j, M.lik t j = 1) (hsum : ∀ t i, ∑ j, M.trans t i j = 1) :
    ∀ k t, T ≤ t → ∀ i, M.future t k i = 1 := by
  intro k
  induction k with
  | zero => intro t _ i; exact M.future_zero t i
  | succ k ih =>
    intro t ht i
    rw [future_succ, ← hsum t i]
    refine Finset.sum_congr rfl fun j _ => ?_
    rw [ih (t + 1) (by omega), mul_one]
    simp [stepMat, hlik t ht j]

theorem future_padded {T : ℕ} (hlik : ∀ t ≥ T, ∀ j, M.lik t j = 1) (hsum : ∀ t i, ∑ j, M.trans t i j = 1)
    (t m k : ℕ) (hm : t + m = T) (i : X) : M.future t (m + k) i = M.future t m i := by
  rw [future_steps, hm]
  simp only [future_missing hlik hsum k T le_rfl, mul_one]
  rfl

theorem evidence_padded {T : ℕ} (hlik : ∀ t ≥ T, ∀ j, M.lik t j = 1) (hsum : ∀ t i, ∑ j, M.trans t i j = 1)
    (k : ℕ) : M.evidence (T + k) = M.evidence T := by
  rw [evidence_eq_sum, evidence_eq_sum]
  simp only [filterJoint_steps M T k]
  rw [Finset.sum_comm]
  refine Finset.sum_congr rfl fun i _ => ?_
  rw [← Finset.mul_sum]
  have := future_missing hlik hsum k T le_rfl i
  rw [future] at this
  rw [this, mul_one]

theorem smoothJoint_padded {T : ℕ} (hlik : ∀ t ≥ T, ∀ j, M.lik t j = 1) (hsum : ∀ t i, ∑ j, M.trans t i j = 1)
    (k t : ℕ) (ht : t ≤ T) (j : X) :
    M.smoothJoint (T + k) ⟨t, by omega⟩ j = M.smoothJoint T ⟨t, by omega⟩ j := by
  obtain ⟨m, rfl⟩ : ∃ m, T = t + m := ⟨T - t, by omega⟩
  rw [smoothJoint_eq]
  have e2 : ∀ (N : ℕ) (hN : N = t + (m + k)) (h1 : t < N + 1),
      M.smoothJoint N ⟨t, h1⟩ j = M.filterJoint t j * M.future t (m + k) j := by
    intro N hN h1; subst hN; exact M.smoothJoint_eq t (m + k) j
  rw [e2 _ (by omega), future_padded hlik hsum t m k rfl]

end Cuthbert.Spec.HMM

namespace Cuthbert.Discrete
open Fl Spec Spec.HMM

variable {n : ℕ} {Inp K K' : Type*} {M : HMM (Fin (n + 1))}
  {getInit : Inp → Fin (n + 1) → Fl} {getTrans : Inp → Fin (n + 1) → Fin (n + 1) → Fl}
  {getObs : Inp → Fin (n + 1) → Fl} {inputs pad : List Inp}

theorem Represents.prefix (hR : Represents M getInit getTrans getObs (inputs ++ pad)) :
    Represents M getInit getTrans getObs inputs := by
  have h : ∀ (t : ℕ) u, inputs[t]? = some u → (inputs ++ pad)[t]? = some u := fun t u hu => by
    rw [List.getElem?_append_left (List.getElem?_eq_some_iff.1 hu).1]; exact hu
  exact ⟨fun u hu => hR.init u (h _ _ hu), fun t u hu => hR.trans t u (h _ _ hu), fun t u hu => hR.obs t u (h _ _ hu)⟩

/-- **C109** (discrete filter). Appending steps whose log-likelihoods are all zero leaves the results at the earlier times
as they are, and the log normalising constant stays, from the end of the original sequence on, at its value there. -/
theorem filter_padded (hR : Represents M getInit getTrans getObs (inputs ++ pad)) (hV : Valid M) (T : ℕ)
    (hlen : inputs.length = T + 1) (hlik : ∀ t ≥ T, ∀ j, M.lik t j = 1) (hpos : RowsPositive M T)
    (rng : Prng K) (rng' : Prng K') (key : Option K) (key' : Option K') (parallel parallel' : Bool) :
    ∃ states states', (filter rng (buildFilter (K := K) getInit getTrans getObs) inputs parallel key).result
        = .ok states ∧
      (filter rng' (buildFilter (K := K') getInit getTrans getObs) (inputs ++ pad) parallel' key').result = .ok states' ∧
      states.length = T + 1 ∧ states'.length = T + pad.length + 1 ∧
      (∀ t ≤ T, ∃ s s', states[t]? = some s ∧ states'[t]? = some s' ∧
        (∀ j, s'.dist j = s.dist j) ∧ s'.logNormalizingConstant = s.logNormalizingConstant) ∧
      ∀ t ≥ T, ∀ s s', states[T]? = some s → states'[t]? = some s' →
        s'.logNormalizingConstant = s.logNormalizingConstant := by
  have hpos' : RowsPositive M ((inputs ++ pad).length - 1) := by
    intro t _ i
    rcases Nat.lt_or_ge t T with h | h
    · exact hpos t h i
    · simp only [hlik t h, mul_one, hV.trans_sum]; exact one_pos
  obtain ⟨states, e, hl, hall⟩ := discrete_filter_exact hR.prefix hV (by rintro rfl; simp at hlen)
    (by rw [hlen]; exact hpos) rng key parallel
  obtain ⟨states', e', hl', hall'⟩ := discrete_filter_exact hR hV (by
    intro h; rw [(List.append_eq_nil_iff.1 h).1] at hlen; simp at hlen) hpos' rng' key' parallel'
  have hl2 : states'.length = T + pad.length + 1 := by rw [hl', List.length_append, hlen]; omega
  refine ⟨states, states', e, e', hl.trans hlen, hl2, fun t ht => ?_, fun t ht s s' hs hs' => ?_⟩
  · have h1 : t < states.length := by rw [hl, hlen]; omega
    have h2 : t < states'.length := by rw [hl2]; omega
    obtain ⟨a1, -, a3, -⟩ := hall t _ (List.getElem?_eq_getElem h1)
    obtain ⟨b1, -, b3, -⟩ := hall' t _ (List.getElem?_eq_getElem h2)
    exact ⟨_, _, List.getElem?_eq_getElem h1, List.getElem?_eq_getElem h2, fun j => by rw [a1, b1], by rw [a3, b3]⟩
  · rw [(hall T s hs).2.2.1, (hall' t s' hs').2.2.1]
    obtain ⟨k, rfl⟩ : ∃ k, t = T + k := ⟨t - T, by omega⟩
    rw [evidence_padded hlik hV.trans_sum]

/-- **C109** (discrete smoother). -/
theorem smoother_padded (hR : Represents M getInit getTrans getObs (inputs ++ pad)) (hV : Valid M) (T : ℕ) (hT : 1 ≤ T)
    (hlen : inputs.length = T + 1) (hlik : ∀ t ≥ T, ∀ j, M.lik t j = 1) (hpos : RowsPositive M T)
    (hreach : AllReachable M (T + pad.length)) (rng rngS : Prng K) (rng' rngS' : Prng K') (key keyS : Option K)
    (key' keyS' : Option K') (parallel parallel' parallelS parallelS' : Bool) (dummy dummy' : Inp → Inp)
    (fs fs' : List (FilterState n Inp))
    (hfs : (filter rng (buildFilter (K := K) getInit getTrans getObs) inputs parallel key).result = .ok fs)
    (hfs' : (filter rng' (buildFilter (K := K') getInit getTrans getObs) (inputs ++ pad) parallel' key').result
      = .ok fs') :
    ∃ states states', (smoother rngS FilterState.modelInputs (fun u => .ok (dummy u))
        (buildSmoother dummy getTrans) fs none parallelS keyS).result = .ok states ∧
      (smoother rngS' FilterState.modelInputs (fun u => .ok (dummy' u))
        (buildSmoother dummy' getTrans) fs' none parallelS' keyS').result = .ok states' ∧
      ∀ t ≤ T, ∃ s s', states[t]? = some s ∧ states'[t]? = some s' ∧ ∀ j, s'.dist j = s.dist j := by
  have hpos' : RowsPositive M (T + pad.length) := by
    intro t _ i
    rcases Nat.lt_or_ge t T with h | h
    · exact hpos t h i
    · simp only [hlik t h, mul_one, hV.trans_sum]; exact one_pos
  obtain ⟨states, e, hl, hall⟩ := discrete_smoother_exact hR.prefix hV T hlen hT hpos
    (fun t ht => hreach t (by omega)) rng rngS key keyS parallel parallelS dummy fs hfs
  obtain ⟨states', e', hl', hall'⟩ := discrete_smoother_exact hR hV (T + pad.length)
    (by rw [List.length_append, hlen]; omega) (by omega) hpos' hreach rng' rngS' key' keyS' parallel' parallelS'
    dummy' fs' hfs'
  refine ⟨states, states', e, e', fun t ht => ?_⟩
  have h1 : t < states.length := by rw [hl]; omega
  have h2 : t < states'.length := by rw [hl']; omega
  have a1 := (hall t (by omega) _ (List.getElem?_eq_getElem h1)).1
  have b1 := (hall' t (by omega) _ (List.getElem?_eq_getElem h2)).1
  refine ⟨_, _, List.getElem?_eq_getElem h1, List.getElem?_eq_getElem h2, fun j => ?_⟩
  rw [a1, b1, smoothLaw, smoothLaw, smoothJoint_padded hlik hV.trans_sum _ t ht, evidence_padded hlik hV.trans_sum]

/-- Non-vacuity: the two-state chain with one informative observation. -/
example : ∃ M : HMM (Fin 2), Valid M ∧ (∀ t ≥ 1, ∀ j, M.lik t j = 1) ∧ M.lik 0 0 ≠ M.lik 0 1 ∧ RowsPositive M 1 ∧
    ∀ T, AllReachable M T := by
  have key : ∀ M : HMM (Fin 2), (∀ i, 0 < M.init i) → (∀ t i j, 0 < M.trans t i j) → (∀ t j, 0 < M.lik t j) →
      ∀ t i, 0 < M.filterJoint t i := by
    intro M h1 h2 h3 t
    induction t with
    | zero => intro i; rw [filterJoint_zero]; exact h1 i
    | succ t ih =>
      intro i
      rw [filterJoint_succ]
      exact Finset.sum_pos (fun j _ => mul_pos (ih j) (mul_pos (h2 t j i) (h3 t i))) Finset.univ_nonempty
  have ht : ∀ (t : ℕ) (i j : Fin 2), 0 < (fun _ => ![![3 / 4, 1 / 4], ![1 / 4, 3 / 4]] : ℕ → Fin 2 → Fin 2 → ℝ) t i j := by
    intro t i j; fin_cases i <;> fin_cases j <;> norm_num
  have hl : ∀ (t : ℕ) (j : Fin 2), 0 < (fun t => if t = 0 then ![1, 2] else 1 : ℕ → Fin 2 → ℝ) t j := by
    intro t j
    dsimp only
    split_ifs <;> fin_cases j <;> norm_num
  refine ⟨⟨fun _ => 1 / 2, fun _ => ![![3 / 4, 1 / 4], ![1 / 4, 3 / 4]], fun t => if t = 0 then ![1, 2] else 1⟩, ⟨?_, ?_,
    fun t i j => (ht t i j).le, ?_⟩, ?_, ?_, ?_, ?_⟩
  · intro j; norm_num
  · norm_num [Fin.sum_univ_two]
  · intro t i; rw [Fin.sum_univ_two]; fin_cases i <;> norm_num
  · intro t h j; simp [show t ≠ 0 by omega]
  · norm_num
  · intro t _ i
    exact Finset.sum_pos (fun j _ => mul_pos (ht t i j) (hl t j)) Finset.univ_nonempty
  · intro T t _ j
    exact Finset.sum_pos (fun i _ => mul_pos (key _ (fun _ => by norm_num) ht hl t i) (ht t i j)) Finset.univ_nonempty

end Cuthbert.Discrete
