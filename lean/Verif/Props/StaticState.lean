import Verif.Props.Grid
import Verif.Props.GridDiscrete
import Verif.Props.Uncertainty

/-!
# A state that does not move: the order of the observations is irrelevant (C111)
-/

namespace Cuthbert.Kalman
open MeasureTheory Matrix Cuthbert Cuthbert.Spec
open scoped ENNReal

noncomputable section

variable {nx ny : ℕ} {Inp K K' : Type}

/-- The step leaves the state where it is. -/
structure Static (s : Step nx ny) : Prop where
  F : s.F = 1
  c : s.c = 0
  Q : s.cholQ = 0

theorem pathExp_static (ss : List (Step nx ny)) (h : ∀ s ∈ ss, Static s) :
    ∀ (f : (ℕ → Fin nx → ℝ) → ℝ≥0∞), Measurable f → ∀ x : Fin nx → ℝ,
      pathExp ss f x = (ss.map fun s => s.lik x).prod * f fun _ => x := by
  induction ss with
  | nil => intro f _ x; simp [pathExp]
  | cons s ss ih =>
    intro f hf x
    have hs := h s List.mem_cons_self
    have ih' := ih fun s' hs' => h s' (List.mem_cons_of_mem _ hs')
    have hm : ∀ x, Measurable fun p : ℕ → Fin nx → ℝ => f (pathCons x p) := fun x => hf.comp (measurable_pi_iff.2 fun t => by
      cases t with
      | zero => exact measurable_const
      | succ t => exact measurable_pi_apply t)
    have hp : ∀ ss : List (Step nx ny), Measurable fun x' => (ss.map fun s => s.lik x').prod := by
      intro ss
      induction ss with
      | nil => exact measurable_const
      | cons s ss ih =>
        simp only [List.map_cons, List.prod_cons]
        exact s.measurable_lik.mul ih
    have hc : Measurable fun x' : Fin nx → ℝ => f (pathCons x fun _ => x') := hf.comp (measurable_pi_iff.2 fun t => by
      cases t with
      | zero => exact measurable_const
      | succ t => exact measurable_id)
    simp only [pathExp, hs.F, hs.c, hs.Q]
    have e : ∀ x', s.lik x' * pathExp ss (fun p => f (pathCons x p)) x' =
        s.lik x' * ((ss.map fun s => s.lik x').prod * f (pathCons x fun _ => x')) := fun x' => by rw [ih' _ (hm x)]
    simp only [e]
    rw [lintegral_gauss _ _ (by exact s.measurable_lik.mul ((hp ss).mul hc))]
    simp only [Matrix.one_mulVec, add_zero, Matrix.zero_mulVec, lintegral_const, measure_univ, mul_one]
    rw [List.map_cons, List.prod_cons, mul_assoc]
    congr 3
    funext t
    cases t <;> rfl

theorem jointExp_static (m0 : Fin nx → ℝ) (P0 : Matrix (Fin nx) (Fin nx) ℝ) (ss : List (Step nx ny))
    (h : ∀ s ∈ ss, Static s) (t : ℕ) (φ : (Fin nx → ℝ) → ℝ≥0∞) (hφ : Measurable φ) :
    jointExp m0 P0 ss (fun p => φ (p t)) = ∫⁻ x, (ss.map fun s => s.lik x).prod * φ x ∂gauss m0 P0 := by
  rw [jointExp]
  exact lintegral_congr fun x => pathExp_static ss h _ (hφ.comp (measurable_pi_apply t)) x

/-- **C111**, filter. With a state that does not move, the filter returns after any reordering of the observations the same
final mean, covariance and log normalising constant. -/
theorem filter_reordered (qr qr' : QR) (rng : Prng K) (rng' : Prng K') (cb : Callbacks nx ny Inp) (u₀ : Inp)
    {us us' : List Inp} (hperm : us.Perm us') (parallel parallel' : Bool) (key : Option K) (key' : Option K')
    (hs : ∀ u ∈ us, Static (stepOf cb u)) (hR : ∀ u ∈ us, (stepOf cb u).R.det ≠ 0) :
    ∃ states states', (filter rng (buildFilter qr cb) (u₀ :: us) parallel key).result = .ok states ∧
      (filter rng' (buildFilter qr' cb) (u₀ :: us') parallel' key').result = .ok states' ∧
      ∃ s s' m L L', states[us.length]? = some s ∧ states'[us.length]? = some s' ∧
        s.mean = some m ∧ s'.mean = some m ∧ s.cholCov = some L ∧ s'.cholCov = some L' ∧ L' * L'ᵀ = L * Lᵀ ∧
        (IsLower (cb.getInit u₀).2 → ∀ l l', s.logNormalizingConstant = some l →
          s'.logNormalizingConstant = some l' → l' = l) := by
  obtain ⟨states, h1, h2, h3⟩ := kalman_filter_exact qr rng cb u₀ us parallel key hR
  obtain ⟨states', h1', h2', h3'⟩ := kalman_filter_exact qr' rng' cb u₀ us' parallel' key'
    fun u hu => hR u (hperm.mem_iff.2 hu)
  refine ⟨states, states', h1, h1', ?_⟩
  obtain ⟨s, m, L, l, h4, h5, h6, h7, h8⟩ := h3 us.length le_rfl
  obtain ⟨s', m', L', l', h4', h5', h6', h7', h8'⟩ := h3' us.length hperm.length_eq.le
  obtain ⟨e1, e2, e3⟩ := weighted_gauss_injective (m := m') (m' := m) (L := L') (M := L) (l := l') (l' := l) fun φ hφ => by
    have ht : us'.take us.length = us' := List.take_of_length_le hperm.length_eq.ge
    have hst : ∀ us : List Inp, (∀ u ∈ us, Static (stepOf cb u)) → ∀ s ∈ us.map (stepOf cb), Static s := by
      intro us h s hs
      obtain ⟨u, hu, rfl⟩ := List.mem_map.1 hs
      exact h u hu
    rw [← h7' φ hφ, ← h7 φ hφ, List.take_length, ht, jointExp_static _ _ _ (hst us hs) _ φ hφ,
      jointExp_static _ _ _ (hst us' fun u hu => hs u (hperm.mem_iff.2 hu)) _ φ hφ]
    refine lintegral_congr fun x => ?_
    rw [(((hperm.map (stepOf cb)).map fun s => s.lik x).symm).prod_eq]
  subst e2
  refine ⟨s, s', m', L, L', h4, h4', h5, h5', h6, h6', e3, fun hl v v' hv hv' => ?_⟩
  rw [(h8 hl).1 v hv, (h8' hl).1 v' hv', e1]

/-- **C111**, smoother. With a state that does not move, the smoothed mean and covariance are the same at all times, are
those that the filter returns at the final time, and do not depend on the order of the observations. -/
theorem smoother_static (qr : QR) (rng rng₁ : Prng K) (cb : Callbacks nx ny Inp) (u₀ : Inp) (us : List Inp)
    (hus : us ≠ []) (parallel parallel₁ : Bool) (key key₁ : Option K) (opts : SmootherOpts nx Inp)
    (hs : ∀ u ∈ us, Static (stepOf cb u)) (hR : ∀ u ∈ us, (stepOf cb u).R.det ≠ 0) (hP0 : (cb.getInit u₀).2.det ≠ 0)
    {filterStates : List (FilterState nx Inp)}
    (hf : (filter rng (buildFilter qr cb) (u₀ :: us) parallel key).result = .ok filterStates) :
    ∃ states m L s₀, (smoother rng₁ FilterState.modelInputs (fun u => .ok (opts.dummy u))
        (buildSmoother qr cb.getDynamics opts) filterStates none parallel₁ key₁).result = .ok states ∧
      filterStates[us.length]? = some s₀ ∧ s₀.mean = some m ∧ s₀.cholCov = some L ∧
      ∀ t ≤ us.length, ∃ s L', states[t]? = some s ∧ s.mean = some m ∧ s.cholCov = some L' ∧ L' * L'ᵀ = L * Lᵀ := by
  have hst : ∀ s ∈ us.map (stepOf cb), Static s := by
    intro s hs'
    obtain ⟨u, hu, rfl⟩ := List.mem_map.1 hs'
    exact hs u hu
  have hd : ∀ t ≤ us.length, (kfAt cb u₀ us t).P.det ≠ 0 := fun t ht =>
    kfAt_det cb u₀ us hR (by rw [Matrix.det_mul, Matrix.det_transpose]; exact mul_ne_zero hP0 hP0)
      (fun u hu => .inl (by rw [(hs u hu).F, Matrix.det_one]; exact one_ne_zero)) t ht
  have hP : ∀ (t : ℕ) s L u, filterStates[t]? = some s → s.cholCov = some L → us[t]? = some u →
      ((stepOf cb u).F * (L * Lᵀ) * ((stepOf cb u).F)ᵀ + (stepOf cb u).cholQ * ((stepOf cb u).cholQ)ᵀ).det ≠ 0 := by
    intro t s L u hs' hL hu
    obtain ⟨ht, L₁, h1, h2⟩ := filter_cov qr rng cb u₀ us parallel key hR hf hs'
    obtain rfl : L₁ = L := Option.some.inj (h1.symm.trans hL)
    have := hs u (List.mem_of_getElem? hu)
    rw [this.F, this.Q, h2]
    simpa using hd t ht
  obtain ⟨fs, h1, h2, h3⟩ := kalman_filter_exact qr rng cb u₀ us parallel key hR
  obtain rfl : fs = filterStates := Except.ok.inj (h1.symm.trans hf)
  obtain ⟨s₀, m, L, l, h4, h5, h6, h7, -⟩ := h3 us.length le_rfl
  obtain ⟨states, l', g1, g2, g3, -⟩ := kalman_smoother_exact qr rng rng₁ cb u₀ us hus parallel parallel₁ key
    key₁ opts hR fs hf hP none (.inl rfl)
  refine ⟨states, m, L, s₀, g1, h4, h5, h6, fun t ht => ?_⟩
  obtain ⟨s, m', L', g4, g5, g6, g7⟩ := g3 t ht
  obtain ⟨-, e2, e3⟩ := weighted_gauss_injective (m := m') (m' := m) (L := L') (M := L) (l := l') (l' := l) fun φ hφ => by
    rw [← g7 φ hφ, ← h7 φ hφ, List.take_length, jointExp_static _ _ _ hst _ φ hφ, jointExp_static _ _ _ hst _ φ hφ]
  subst e2
  exact ⟨s, L', g4, g5, g6, e3⟩

/-- Non-vacuity: the mean of a scalar, observed twice, with noise of different sizes. -/
example : ∃ cb : Callbacks 1 1 ℕ, (∀ u ∈ [1, 2], Static (stepOf cb u)) ∧ (∀ u ∈ [1, 2], (stepOf cb u).R.det ≠ 0) ∧
    (cb.getInit 0).2.det ≠ 0 ∧ IsLower (cb.getInit 0).2 ∧ [1, 2].Perm [2, 1] ∧ (stepOf cb 1).y ≠ (stepOf cb 2).y := by
  refine ⟨⟨fun _ => (0, 1), fun _ => (1, 0, 0), fun u => (1, 0, (u : ℝ) • 1, fun _ => some u)⟩, fun _ _ => ⟨rfl, rfl, rfl⟩,
    fun u hu => obsR_det _ _ ?_, by simp, ?_, List.Perm.swap 2 1 [], fun h => ?_⟩
  · simp only [List.mem_cons, List.not_mem_nil, or_false] at hu
    rcases hu with rfl | rfl <;> simp [stepOf]
  · intro i j hij; exact absurd hij (by simp [Subsingleton.elim i j])
  · have := congrFun h 0
    simp [stepOf] at this

end

end Cuthbert.Kalman

namespace Cuthbert.Spec.HMM
variable {X : Type*} [Fintype X] [DecidableEq X] {M : HMM X}

theorem filterJoint_static (T : ℕ) (h : ∀ t < T, ∀ i j, M.trans t i j = if i = j then 1 else 0) :
    ∀ t ≤ T, ∀ j, M.filterJoint t j = M.init j * ∏ r ∈ Finset.range t, M.lik r j := by
  intro t
  induction t with
  | zero => intro _ j; simp [filterJoint_zero]
  | succ t ih =>
    intro ht j
    rw [filterJoint_succ, Finset.prod_range_succ, Finset.sum_eq_single j]
    · rw [ih (by omega), stepMat]
      simp [h t (by omega)]
      ring
    · intro i _ hij
      simp [stepMat, h t (by omega), hij]
    · simp

end Cuthbert.Spec.HMM

namespace Cuthbert.Discrete
open Fl Spec Spec.HMM

variable {n : ℕ} {Inp K K' : Type*} {M M' : HMM (Fin (n + 1))}
  {getInit : Inp → Fin (n + 1) → Fl} {getTrans : Inp → Fin (n + 1) → Fin (n + 1) → Fl}
  {getObs : Inp → Fin (n + 1) → Fl} {u₀ : Inp} {us us' : List Inp}

theorem prod_range_eq {ι : Type*} (g : ι → ℝ) : ∀ (us : List ι) (f : ℕ → ℝ), (∀ (t : ℕ) u, us[t]? = some u → f t = g u) →
    ∏ r ∈ Finset.range us.length, f r = (us.map g).prod
  | [], _, _ => by simp
  | u :: us, f, h => by
    rw [List.length_cons, Finset.prod_range_succ', List.map_cons, List.prod_cons, mul_comm, h 0 u rfl,
      prod_range_eq g us (fun r => f (r + 1)) fun t v hv => h (t + 1) v hv]

/-- **C111** (discrete filter). With a state that does not move, the discrete filter returns after any reordering of the
observations the same final distribution and log normalising constant. -/
theorem filter_reordered (hR : Represents M getInit getTrans getObs (u₀ :: us))
    (hR' : Represents M' getInit getTrans getObs (u₀ :: us')) (hperm : us.Perm us') (hV : Valid M) (hV' : Valid M')
    (hs : ∀ u ∈ us, ∀ i j, getTrans u i j = fin (if i = j then 1 else 0)) (hpos : ∀ u ∈ us, ∀ j, 0 < lik (getObs u j))
    (rng : Prng K) (rng' : Prng K') (key : Option K) (key' : Option K') (parallel parallel' : Bool) :
    ∃ states states', (filter rng (buildFilter (K := K) getInit getTrans getObs) (u₀ :: us) parallel key).result
        = .ok states ∧
      (filter rng' (buildFilter (K := K') getInit getTrans getObs) (u₀ :: us') parallel' key').result = .ok states' ∧
      ∃ s s', states[us.length]? = some s ∧ states'[us.length]? = some s' ∧
        (∀ j, s'.dist j = s.dist j) ∧ s'.logNormalizingConstant = s.logNormalizingConstant := by
  have key₁ : ∀ (M : HMM (Fin (n + 1))) (vs : List Inp), Represents M getInit getTrans getObs (u₀ :: vs) →
      (∀ u ∈ vs, u ∈ us) → RowsPositive M vs.length ∧
      ∀ j, M.filterJoint vs.length j = M.init j * (vs.map fun u => lik (getObs u j)).prod := by
    intro M vs hR hsub
    have hget : ∀ t < vs.length, ∃ u, u ∈ us ∧ (u₀ :: vs)[t + 1]? = some u := fun t ht =>
      ⟨vs[t], hsub _ (List.getElem_mem ht), by rw [List.getElem?_cons_succ, List.getElem?_eq_getElem ht]⟩
    have htr : ∀ t < vs.length, ∀ i j, M.trans t i j = if i = j then 1 else 0 := by
      intro t ht i j
      obtain ⟨u, hu, hu'⟩ := hget t ht
      exact Fl.fin.inj ((hR.trans t u hu' i j).symm.trans (hs u hu i j))
    refine ⟨fun t ht i => ?_, fun j => ?_⟩
    · obtain ⟨u, hu, hu'⟩ := hget t ht
      have := hpos u hu i
      rw [(hR.obs t u hu' i).2] at this
      simpa [htr t ht] using this
    · rw [filterJoint_static vs.length htr _ le_rfl, prod_range_eq (fun u => lik (getObs u j)) vs (fun r => M.lik r j)
        fun t u hu => (hR.obs t u hu j).2.symm]
  obtain ⟨p1, f1⟩ := key₁ M us hR fun u hu => hu
  obtain ⟨p2, f2⟩ := key₁ M' us' hR' fun u hu => hperm.mem_iff.2 hu
  obtain ⟨states, e, hl, hall⟩ := discrete_filter_exact hR hV (by simp) (by simpa using p1) rng key parallel
  obtain ⟨states', e', hl', hall'⟩ := discrete_filter_exact hR' hV' (by simp) (by simpa using p2) rng' key' parallel'
  have h1 : us.length < states.length := by rw [hl]; simp
  have h2 : us.length < states'.length := by rw [hl', hperm.length_eq]; simp
  obtain ⟨a1, -, a3, -⟩ := hall us.length _ (List.getElem?_eq_getElem h1)
  obtain ⟨b1, -, b3, -⟩ := hall' us.length _ (List.getElem?_eq_getElem h2)
  have hj : ∀ j, M'.filterJoint us.length j = M.filterJoint us.length j := by
    intro j
    have h3 : M'.init j = M.init j := Fl.fin.inj ((hR'.init u₀ rfl j).symm.trans (hR.init u₀ rfl j))
    rw [f1 j]
    conv_lhs => rw [hperm.length_eq, f2 j, h3]
    rw [(hperm.symm.map _).prod_eq]
  have hev : M'.evidence us.length = M.evidence us.length := by simp only [evidence_eq_sum, hj]
  refine ⟨states, states', e, e', _, _, List.getElem?_eq_getElem h1, List.getElem?_eq_getElem h2, fun j => ?_, ?_⟩
  · rw [a1, b1, filterLaw, filterLaw, hj, hev]
  · rw [a3, b3, hev]

/-- Non-vacuity: an unknown coin, tossed twice. -/
example : ∃ (M M' : HMM (Fin 2)) (getObs : ℕ → Fin 2 → Fl),
    Represents M (fun _ _ => fin (1 / 2)) (fun _ i j => fin (if i = j then 1 else 0)) getObs [0, 1, 2] ∧
    Represents M' (fun _ _ => fin (1 / 2)) (fun _ i j => fin (if i = j then 1 else 0)) getObs [0, 2, 1] ∧
    [1, 2].Perm [2, 1] ∧ Valid M ∧ Valid M' ∧ (∀ u ∈ [1, 2], ∀ j, 0 < lik (getObs u j)) ∧ M.lik 0 0 ≠ M'.lik 0 0 := by
  have hv : ∀ l : ℕ → Fin 2 → ℝ, Valid (⟨fun _ => 1 / 2, fun _ i j => if i = j then 1 else 0, l⟩ : HMM (Fin 2)) := fun l =>
    ⟨fun j => by norm_num, by norm_num [Fin.sum_univ_two], fun t i j => by dsimp only; split_ifs <;> norm_num,
      fun t i => by simp⟩
  refine ⟨⟨fun _ => 1 / 2, fun _ i j => if i = j then 1 else 0, fun t j => Real.exp (if t = 0 then 1 else j)⟩,
    ⟨fun _ => 1 / 2, fun _ i j => if i = j then 1 else 0, fun t j => Real.exp (if t = 0 then j else 1)⟩,
    fun u j => fin (if u = 1 then 1 else j), ⟨fun _ _ _ => rfl, fun _ _ _ _ _ => rfl, fun t u h j => ?_⟩,
    ⟨fun _ _ _ => rfl, fun _ _ _ _ _ => rfl, fun t u h j => ?_⟩, List.Perm.swap 2 1 [], hv _, hv _, ?_, ?_⟩
  · match t, h with
    | 0, h => cases h; exact ⟨trivial, by simp [Fl.lik]⟩
    | 1, h => cases h; exact ⟨trivial, by simp [Fl.lik]⟩
  · match t, h with
    | 0, h => cases h; exact ⟨trivial, by simp [Fl.lik]⟩
    | 1, h => cases h; exact ⟨trivial, by simp [Fl.lik]⟩
  · intro u _ j; exact Real.exp_pos _
  · simp

end Cuthbert.Discrete
